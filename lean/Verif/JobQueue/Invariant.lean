import Verif.JobQueue.Model

/-! # Inductive invariant of the JobQueue machine -/

namespace Verif.JobQueue

/-- the worker is between popping a job and giving back its activity count -/
def busy : WPC → Bool
  | .run _ | .done _ => true
  | _ => false
/-- counted in `threadsInPool_` -/
def pooled : WPC → Bool
  | .enter | .fin => false
  | _ => true
/-- owns the mutex -/
def holdsW : WPC → Bool
  | .check | .presleep | .check2 | .take => true
  | _ => false
def holdsC : CPC → Bool
  | .wCheck | .wPresleep | .dCheck | .dPresleep => true
  | _ => false
/-- will not notice a new job unless notified -/
def dozing : WPC → Bool
  | .presleep | .sleep => true
  | _ => false
def qWaiting : CPC → Bool
  | .wPresleep | .wSleep => true
  | _ => false
def dWaiting : CPC → Bool
  | .dPresleep | .dSleep => true
  | _ => false
/-- inside the destructor, past its first critical section -/
def inDtor : CPC → Bool
  | .dCheck | .dPresleep | .dSleep | .dWoken | .dFin => true
  | _ => false

/-- executing job `j` -/
def runs (j : Job) : WPC → Bool
  | .run k => k == j
  | _ => false

structure Inv (s : State) : Prop where
  fifo : s.scheduled = s.begun.map Prod.snd ++ s.q
  act : s.active = s.workers.countP busy
  pool : s.inPool = s.workers.countP pooled
  lockW : ∀ (i : Nat) (pc : WPC), s.workers[i]? = some pc → (holdsW pc = true ↔ s.lock = some (.W i))
  lockC : ∀ (k : Nat) (pc : CPC), s.clients[k]? = some pc → (holdsC pc = true ↔ s.lock = some (.C k))
  lockWB : ∀ i, s.lock = some (.W i) → i < s.workers.length
  lockCB : ∀ k, s.lock = some (.C k) → k < s.clients.length
  doze : ∀ (i : Nat) (pc : WPC), s.workers[i]? = some pc → dozing pc = true → s.q = []
  chk2 : ∀ i : Nat, s.workers[i]? = some .check2 → s.q ≠ [] ∨ s.kill = true
  tk : ∀ i : Nat, s.workers[i]? = some .take → s.q ≠ []
  qw : ∀ (k : Nat) (pc : CPC), s.clients[k]? = some pc → qWaiting pc = true → s.active ≠ 0 ∨ s.q ≠ []
  dw : ∀ (k : Nat) (pc : CPC), s.clients[k]? = some pc → dWaiting pc = true → s.inPool ≠ 0
  dk : ∀ (k : Nat) (pc : CPC), s.clients[k]? = some pc → inDtor pc = true → s.kill = true
  dn : ∀ (k : Nat) (pc : CPC), s.clients[k]? = some pc → inDtor pc = true →
    ∀ (i : Nat) (wpc : WPC), s.workers[i]? = some wpc → dozing wpc = false
  jobs : ∀ j, (s.begun.map Prod.snd).count j = s.finished.count j + s.workers.countP (runs j)
  st : s.started = false → s.workers = []

theorem inv_init (n : Nat) : Inv (init n) := by
  have hc : ∀ (k : Nat) (pc : CPC), (init n).clients[k]? = some pc → pc = .idle := by
    intro k pc h
    simp only [init, List.getElem?_replicate] at h
    split at h <;> simp_all
  constructor <;> simp [init]
  · intro k pc h; have := hc k pc (by simpa [init] using h); subst this; rfl
  · intro k pc h; have := hc k pc (by simpa [init] using h); subst this; simp [qWaiting]
  · intro k pc h; have := hc k pc (by simpa [init] using h); subst this; simp [dWaiting]
  · intro k pc h; have := hc k pc (by simpa [init] using h); subst this; simp [inDtor]

@[simp] theorem busy_wakeW (p) : busy (wakeW p) = busy p := by cases p <;> rfl
@[simp] theorem pooled_wakeW (p) : pooled (wakeW p) = pooled p := by cases p <;> rfl
@[simp] theorem holdsW_wakeW (p) : holdsW (wakeW p) = holdsW p := by cases p <;> rfl
@[simp] theorem holdsC_wakeD (p) : holdsC (wakeD p) = holdsC p := by cases p <;> rfl
@[simp] theorem holdsC_wakeQ (p) : holdsC (wakeQ p) = holdsC p := by cases p <;> rfl
@[simp] theorem inDtor_wakeD (p) : inDtor (wakeD p) = inDtor p := by cases p <;> rfl
@[simp] theorem inDtor_wakeQ (p) : inDtor (wakeQ p) = inDtor p := by cases p <;> rfl
@[simp] theorem qWaiting_wakeD (p) : qWaiting (wakeD p) = qWaiting p := by cases p <;> rfl
@[simp] theorem dWaiting_wakeQ (p) : dWaiting (wakeQ p) = dWaiting p := by cases p <;> rfl
theorem dWaiting_wakeD (p) : dWaiting (wakeD p) = true → p = .dPresleep := by cases p <;> simp [dWaiting, wakeD]
theorem qWaiting_wakeQ (p) : qWaiting (wakeQ p) = true → p = .wPresleep := by cases p <;> simp [qWaiting, wakeQ]
theorem dozing_wakeW (p) : dozing (wakeW p) = true → p = .presleep := by cases p <;> simp [dozing, wakeW]
@[simp] theorem runs_wakeW (j p) : runs j (wakeW p) = runs j p := by cases p <;> rfl
@[simp] theorem wakeW_check2 (p) : wakeW p = .check2 ↔ p = .check2 := by cases p <;> simp [wakeW]
@[simp] theorem wakeW_take (p) : wakeW p = .take ↔ p = .take := by cases p <;> simp [wakeW]

/-- What must hold just before a `condition_.notify_all()` (`Inv` with the three facts about sleepers
that the notification re-establishes weakened). -/
structure InvN (s : State) : Prop where
  fifo : s.scheduled = s.begun.map Prod.snd ++ s.q
  act : s.active = s.workers.countP busy
  pool : s.inPool = s.workers.countP pooled
  lockW : ∀ (i : Nat) (pc : WPC), s.workers[i]? = some pc → (holdsW pc = true ↔ s.lock = some (.W i))
  lockC : ∀ (k : Nat) (pc : CPC), s.clients[k]? = some pc → (holdsC pc = true ↔ s.lock = some (.C k))
  lockWB : ∀ i, s.lock = some (.W i) → i < s.workers.length
  lockCB : ∀ k, s.lock = some (.C k) → k < s.clients.length
  doze : ∀ i : Nat, s.workers[i]? = some .presleep → s.q = []
  chk2 : ∀ i : Nat, s.workers[i]? = some .check2 → s.q ≠ [] ∨ s.kill = true
  tk : ∀ i : Nat, s.workers[i]? = some .take → s.q ≠ []
  qw : ∀ (k : Nat) (pc : CPC), s.clients[k]? = some pc → qWaiting pc = true → s.active ≠ 0 ∨ s.q ≠ []
  dw : ∀ k : Nat, s.clients[k]? = some .dPresleep → s.inPool ≠ 0
  dk : ∀ (k : Nat) (pc : CPC), s.clients[k]? = some pc → inDtor pc = true → s.kill = true
  dn : ∀ (k : Nat) (pc : CPC), s.clients[k]? = some pc → inDtor pc = true →
    ∀ i : Nat, s.workers[i]? ≠ some .presleep
  jobs : ∀ j, (s.begun.map Prod.snd).count j = s.finished.count j + s.workers.countP (runs j)
  st : s.started = false → s.workers = []

/-- `condition_.notify_all()` establishes the invariant. -/
theorem inv_notifyCond' {s} (h : InvN s) : Inv (notifyCond s) := by
  constructor
  case fifo => exact h.fifo
  case act => simpa [notifyCond, List.countP_map, Function.comp_def] using h.act
  case pool => simpa [notifyCond, List.countP_map, Function.comp_def] using h.pool
  case lockW =>
    intro i pc hi
    simp only [notifyCond, List.getElem?_map, Option.map_eq_some_iff] at hi ⊢
    obtain ⟨p, hp, rfl⟩ := hi
    simpa using h.lockW i p hp
  case lockC =>
    intro i pc hi
    simp only [notifyCond, List.getElem?_map, Option.map_eq_some_iff] at hi ⊢
    obtain ⟨p, hp, rfl⟩ := hi
    simpa using h.lockC i p hp
  case lockWB => simpa [notifyCond] using h.lockWB
  case lockCB => simpa [notifyCond] using h.lockCB
  case doze =>
    intro i pc hi hd
    simp only [notifyCond, List.getElem?_map, Option.map_eq_some_iff] at hi ⊢
    obtain ⟨p, hp, rfl⟩ := hi
    exact h.doze i (by rw [hp, dozing_wakeW p hd])
  case chk2 =>
    intro i hi
    simp only [notifyCond, List.getElem?_map, Option.map_eq_some_iff, wakeW_check2] at hi ⊢
    obtain ⟨p, hp, rfl⟩ := hi
    exact h.chk2 i hp
  case tk =>
    intro i hi
    simp only [notifyCond, List.getElem?_map, Option.map_eq_some_iff, wakeW_take] at hi ⊢
    obtain ⟨p, hp, rfl⟩ := hi
    exact h.tk i hp
  case qw =>
    intro i pc hi hd
    simp only [notifyCond, List.getElem?_map, Option.map_eq_some_iff] at hi ⊢
    obtain ⟨p, hp, rfl⟩ := hi
    exact h.qw i p hp (by simpa using hd)
  case dw =>
    intro i pc hi hd
    simp only [notifyCond, List.getElem?_map, Option.map_eq_some_iff] at hi ⊢
    obtain ⟨p, hp, rfl⟩ := hi
    exact h.dw i (by rw [hp, dWaiting_wakeD p hd])
  case dk =>
    intro i pc hi hd
    simp only [notifyCond, List.getElem?_map, Option.map_eq_some_iff] at hi ⊢
    obtain ⟨p, hp, rfl⟩ := hi
    exact h.dk i p hp (by simpa using hd)
  case dn =>
    intro i pc hi hd k wpc hk
    simp only [notifyCond, List.getElem?_map, Option.map_eq_some_iff] at hi hk
    obtain ⟨p, hp, rfl⟩ := hi
    obtain ⟨w, hw, rfl⟩ := hk
    have := h.dn i p hp (by simpa using hd) k
    cases hc : dozing (wakeW w) with
    | false => rfl
    | true => rw [dozing_wakeW w hc] at hw; exact absurd hw this
  case jobs => simpa [notifyCond, List.countP_map, Function.comp_def] using h.jobs
  case st => intro hs; have := h.st hs; simp [notifyCond, this]

theorem Inv.toN {s} (h : Inv s) : InvN s where
  fifo := h.fifo
  act := h.act
  pool := h.pool
  lockW := h.lockW
  lockC := h.lockC
  lockWB := h.lockWB
  lockCB := h.lockCB
  doze := fun i hi => h.doze i _ hi rfl
  chk2 := h.chk2
  tk := h.tk
  qw := h.qw
  dw := fun k hk => h.dw k _ hk rfl
  dk := h.dk
  dn := fun k pc hk hd i hi => by have := h.dn k pc hk hd i _ hi; simp [dozing] at this
  jobs := h.jobs
  st := h.st

theorem inv_notifyCond {s} (h : Inv s) : Inv (notifyCond s) := inv_notifyCond' h.toN

theorem countP_set_nat {p : WPC → Bool} {l : List WPC} {i : Nat} {x y : WPC} (h : l[i]? = some x) :
    (l.set i y).countP p + (if p x then 1 else 0) = l.countP p + (if p y then 1 else 0) := by
  obtain ⟨hi, hx⟩ := List.getElem?_eq_some_iff.1 h
  rw [List.countP_set hi, hx]
  have : p x = true → 0 < l.countP p := fun hp =>
    List.countP_pos_iff.2 ⟨x, List.mem_of_getElem? h, hp⟩
  cases hp : p x with
  | false => simp
  | true => have := this hp; simp only [if_true]; omega

theorem countP_set_int {p : WPC → Bool} {l : List WPC} {i : Nat} {x y : WPC} (h : l[i]? = some x) :
    ((l.set i y).countP p : Int) = l.countP p - (if p x then 1 else 0) + (if p y then 1 else 0) := by
  have := countP_set_nat (p := p) (y := y) h
  split <;> split <;> simp_all <;> omega

theorem Inv.inPool_nonneg {s : State} (h : Inv s) : 0 ≤ s.inPool := by rw [h.pool]; omega
theorem Inv.active_nonneg {s : State} (h : Inv s) : 0 ≤ s.active := by rw [h.act]; omega

/-- Invariant preservation for a worker step without notification. -/
macro "inv_w" h:ident hi:ident y:term : tactic => `(tactic| (
  have hb := (List.getElem?_eq_some_iff.1 $hi).1
  have hn1 := Inv.inPool_nonneg $h
  have hn2 := Inv.active_nonneg $h
  constructor <;> simp only [setW]
  case fifo => first | exact Inv.fifo $h | (have := Inv.fifo $h; simp_all)
  case act => rw [countP_set_int $hi, Inv.act $h]; simp [busy]
  case pool => rw [countP_set_int $hi, Inv.pool $h]; simp [pooled]
  case jobs =>
    intro j
    have h1 := countP_set_nat (p := runs j) (y := $y) $hi
    have h2 := Inv.jobs $h j
    simp [runs, List.count_append, List.count_singleton] at h1 h2 ⊢
    omega
  case lockW => grind [Inv, holdsW]
  case lockC => grind [Inv, holdsC, holdsW]
  case lockWB => grind [Inv]
  case lockCB => grind [Inv]
  case doze => grind [Inv, dozing, holdsW]
  case chk2 => grind [Inv, holdsW]
  case tk => grind [Inv, holdsW]
  case qw => grind [Inv]
  case dw => have := Inv.dw $h; grind
  case dk => grind [Inv]
  case dn => grind [Inv, dozing]
  case st => grind [Inv]))

theorem inv_enter {s : State} {i : Nat} (h : Inv s) (hi : s.workers[i]? = some .enter) (hl : s.lock = none) :
    Inv (setW { s with lock := some (.W i), inPool := s.inPool + 1 } i .check) := by
  inv_w h hi .check

theorem inv_check_wait {s : State} {i : Nat} (h : Inv s) (hi : s.workers[i]? = some .check)
    (hc : s.q = [] ∧ s.kill = false) : Inv (setW s i .presleep) := by
  inv_w h hi .presleep

theorem inv_check_go {s : State} {i : Nat} (h : Inv s) (hi : s.workers[i]? = some .check)
    (hc : ¬ (s.q = [] ∧ s.kill = false)) : Inv (setW s i .check2) := by
  inv_w h hi .check2

theorem inv_presleep {s : State} {i : Nat} (h : Inv s) (hi : s.workers[i]? = some .presleep) :
    Inv (setW { s with lock := none } i .sleep) := by
  inv_w h hi .sleep

theorem inv_woken {s : State} {i : Nat} (h : Inv s) (hi : s.workers[i]? = some .woken) (hl : s.lock = none) :
    Inv (setW { s with lock := some (.W i) } i .check) := by
  inv_w h hi .check

theorem inv_check2 {s : State} {i : Nat} (h : Inv s) (hi : s.workers[i]? = some .check2)
    (hk : s.kill = false) : Inv (setW s i .take) := by
  inv_w h hi .take

theorem inv_take {s : State} {i : Nat} {j : Job} {q : List Job} (h : Inv s) (hi : s.workers[i]? = some .take)
    (hq : s.q = j :: q) :
    Inv (setW { s with q := q, active := s.active + 1, lock := none, begun := s.begun ++ [(i, j)] } i (.run j)) := by
  inv_w h hi (.run j)

theorem inv_run {s : State} {i : Nat} {j : Job} (h : Inv s) (hi : s.workers[i]? = some (.run j)) :
    Inv (setW { s with finished := s.finished ++ [j] } i (.done j)) := by
  inv_w h hi (.done j)

theorem inv_spurW {s : State} {i : Nat} (h : Inv s) (hi : s.workers[i]? = some .sleep) :
    Inv (setW s i .woken) := by
  inv_w h hi .woken

theorem inv_exit {s : State} {i : Nat} (h : Inv s) (hi : s.workers[i]? = some .check2)
    (hk : s.kill = true) :
    Inv (notifyCond (setW { s with inPool := s.inPool - 1, lock := none } i .fin)) := by
  have hb := (List.getElem?_eq_some_iff.1 hi).1
  have hl : s.lock = some (.W i) := (h.lockW i _ hi).1 rfl
  apply inv_notifyCond'
  constructor <;> simp only [setW]
  case fifo => exact h.fifo
  case act => rw [countP_set_int hi, h.act]; simp [busy]
  case pool => rw [countP_set_int hi, h.pool]; simp [pooled]
  case jobs =>
    intro j
    have h1 := countP_set_nat (p := runs j) (y := .fin) hi
    have h2 := h.jobs j
    simp [runs] at h1 h2 ⊢
    omega
  case lockW => grind [Inv, holdsW]
  case lockC => grind [Inv, holdsC]
  case lockWB => grind
  case lockCB => grind
  case doze => grind [Inv, holdsW]
  case chk2 => grind [Inv, holdsW]
  case tk => grind [Inv, holdsW]
  case qw => grind [Inv]
  case dw => grind [Inv, holdsC]
  case dk => grind
  case dn => grind [Inv, holdsW]
  case st => grind [Inv]

theorem inv_done {s : State} {i : Nat} {j : Job} (h : Inv s) (hi : s.workers[i]? = some (.done j))
    (hl : s.lock = none) :
    Inv (notifyWork (setW { s with lock := some (.W i), active := s.active - 1 } i .check)) := by
  have hb := (List.getElem?_eq_some_iff.1 hi).1
  have hcl : ∀ (k : Nat) (pc : CPC), (s.clients.map wakeQ)[k]? = some pc →
      ∃ p, s.clients[k]? = some p ∧ pc = wakeQ p := by
    intro k pc hk
    simp only [List.getElem?_map, Option.map_eq_some_iff] at hk
    obtain ⟨p, hp, rfl⟩ := hk
    exact ⟨p, hp, rfl⟩
  constructor <;> simp only [setW, notifyWork, List.length_map]
  case fifo => exact h.fifo
  case act => rw [countP_set_int hi, h.act]; simp [busy]
  case pool => rw [countP_set_int hi, h.pool]; simp [pooled]
  case jobs =>
    intro j
    have h1 := countP_set_nat (p := runs j) (y := .check) hi
    have h2 := h.jobs j
    simp [runs] at h1 h2 ⊢
    omega
  case lockW => grind [Inv, holdsW]
  case lockC =>
    intro k pc hk
    obtain ⟨p, hp, rfl⟩ := hcl k pc hk
    have := h.lockC k p hp
    simp [hl] at this
    simp [this]
  case lockWB => grind
  case lockCB => grind
  case doze => grind [Inv, holdsW, dozing]
  case chk2 => grind [Inv, holdsW]
  case tk => grind [Inv, holdsW]
  case qw =>
    intro k pc hk hq
    obtain ⟨p, hp, rfl⟩ := hcl k pc hk
    have := h.lockC k p hp
    rw [qWaiting_wakeQ p hq] at this
    simp [hl, holdsC] at this
  case dw =>
    intro k pc hk hq
    obtain ⟨p, hp, rfl⟩ := hcl k pc hk
    exact h.dw k p hp (by simpa using hq)
  case dk =>
    intro k pc hk hq
    obtain ⟨p, hp, rfl⟩ := hcl k pc hk
    exact h.dk k p hp (by simpa using hq)
  case dn =>
    intro k pc hk hq
    obtain ⟨p, hp, rfl⟩ := hcl k pc hk
    have := h.dn k p hp (by simpa using hq)
    grind [dozing]
  case st => grind [Inv]

theorem inv_schedule {s : State} {j : Job} (h : Inv s) (hl : s.lock = none) :
    Inv (notifyCond { s with q := s.q ++ [j], scheduled := s.scheduled ++ [j] }) := by
  apply inv_notifyCond'
  constructor <;> simp only
  case fifo => simp [h.fifo]
  case act => exact h.act
  case pool => exact h.pool
  case jobs => exact h.jobs
  case lockW => exact h.lockW
  case lockC => exact h.lockC
  case lockWB => exact h.lockWB
  case lockCB => exact h.lockCB
  case doze => grind [Inv, holdsW]
  case chk2 => simp
  case tk => simp
  case qw => simp
  case dw => exact h.toN.dw
  case dk => exact h.dk
  case dn => exact h.toN.dn
  case st => exact h.st

theorem inv_kill {s : State} (h : Inv s) : Inv { s with kill := true } := by
  constructor <;> grind [Inv]

theorem inv_start {s : State} {n : Nat} (h : Inv s) (hs : s.started = false) :
    Inv { s with started := true, workers := List.replicate n .enter } := by
  have hw := h.st hs
  have hact := h.act
  have hpool := h.pool
  have hj := h.jobs
  rw [hw] at hact hpool hj
  have hlw : ∀ i, s.lock ≠ some (.W i) := by
    intro i hi; have := h.lockWB i hi; rw [hw] at this; simp at this
  have hget : ∀ (i : Nat) (pc : WPC), (List.replicate n WPC.enter)[i]? = some pc → pc = .enter := by
    intro i pc hp
    rw [List.getElem?_replicate] at hp
    split at hp <;> simp_all
  constructor <;> simp only
  case fifo => exact h.fifo
  case act => rw [hact]; simp [List.countP_replicate, busy]
  case pool => rw [hpool]; simp [List.countP_replicate, pooled]
  case jobs => intro j; rw [hj]; simp [List.countP_replicate, runs]
  case lockW => intro i pc hp; rw [hget i pc hp]; simp [holdsW, hlw]
  case lockC => exact h.lockC
  case lockWB => intro i hi; exact absurd hi (hlw i)
  case lockCB => exact h.lockCB
  case doze => intro i pc hp; rw [hget i pc hp]; simp [dozing]
  case chk2 => intro i hp; have := hget i _ hp; cases this
  case tk => intro i hp; have := hget i _ hp; cases this
  case qw => exact h.qw
  case dw => exact h.dw
  case dk => exact h.dk
  case dn => intro k pc _ _ i wpc hp; rw [hget i wpc hp]; rfl
  case st => simp

/-- Invariant preservation for a client step without notification. -/
macro "inv_c" h:ident hi:ident : tactic => `(tactic| (
  have hb := (List.getElem?_eq_some_iff.1 $hi).1
  constructor <;> simp only [setC]
  case fifo => exact Inv.fifo $h
  case act => exact Inv.act $h
  case pool => exact Inv.pool $h
  case jobs => exact Inv.jobs $h
  case lockW => grind [Inv, holdsW, holdsC]
  case lockC => grind [Inv, holdsC]
  case lockWB => grind [Inv]
  case lockCB => grind [Inv]
  case doze => exact Inv.doze $h
  case chk2 => grind [Inv]
  case tk => exact Inv.tk $h
  case qw => grind [Inv, qWaiting]
  case dw => grind [Inv, dWaiting]
  case dk => grind [Inv, inDtor]
  case dn => grind [Inv, inDtor]
  case st => exact Inv.st $h))

theorem inv_c_acquire {s : State} {k : Nat} {pc pc' : CPC} (h : Inv s) (hi : s.clients[k]? = some pc)
    (hl : s.lock = none)
    (hp : (pc = .wEnter ∨ pc = .wWoken) ∧ pc' = .wCheck ∨ pc = .dWoken ∧ pc' = .dCheck) :
    Inv (setC { s with lock := some (.C k) } k pc') := by
  inv_c h hi

theorem inv_wCheck_wait {s : State} {k : Nat} (h : Inv s) (hi : s.clients[k]? = some .wCheck)
    (hc : s.active ≠ 0 ∨ s.q ≠ []) : Inv (setC s k .wPresleep) := by
  inv_c h hi

theorem inv_wCheck_ret {s : State} {k : Nat} (h : Inv s) (hi : s.clients[k]? = some .wCheck) :
    Inv (setC { s with lock := none } k .idle) := by
  inv_c h hi

theorem inv_wPresleep {s : State} {k : Nat} (h : Inv s) (hi : s.clients[k]? = some .wPresleep) :
    Inv (setC { s with lock := none } k .wSleep) := by
  inv_c h hi

theorem inv_dCheck_wait {s : State} {k : Nat} (h : Inv s) (hi : s.clients[k]? = some .dCheck)
    (hc : s.inPool ≠ 0) : Inv (setC s k .dPresleep) := by
  inv_c h hi

theorem inv_dCheck_ret {s : State} {k : Nat} (h : Inv s) (hi : s.clients[k]? = some .dCheck) :
    Inv (setC { s with lock := none, freed := true } k .dFin) := by
  inv_c h hi

theorem inv_dPresleep {s : State} {k : Nat} (h : Inv s) (hi : s.clients[k]? = some .dPresleep) :
    Inv (setC { s with lock := none } k .dSleep) := by
  inv_c h hi

/-- moves of a client that neither touch the mutex nor enter a guarded region -/
theorem inv_c_plain {s : State} {k : Nat} {pc pc' : CPC} (h : Inv s) (hi : s.clients[k]? = some pc)
    (hp : pc = .idle ∧ (pc' = .wEnter ∨ pc' = .dEnter ∨ pc' = .jNotify) ∨ pc = .jNotify ∧ pc' = .jWait ∨
      pc = .jWait ∧ pc' = .idle ∨ pc = .wSleep ∧ pc' = .wWoken ∨ pc = .dSleep ∧ pc' = .dWoken) :
    Inv (setC s k pc') := by
  inv_c h hi

theorem inv_dEnter {s : State} {k : Nat} (h : Inv s) (hi : s.clients[k]? = some .dEnter) (hl : s.lock = none) :
    Inv (setC (notifyCond { s with lock := some (.C k), kill := true }) k .dCheck) := by
  have hb := (List.getElem?_eq_some_iff.1 hi).1
  have e : setC (notifyCond { s with lock := some (.C k), kill := true }) k .dCheck =
      notifyCond (setC { s with lock := some (.C k), kill := true } k .dCheck) := by
    simp [setC, notifyCond, List.map_set, wakeD]
  rw [e]
  apply inv_notifyCond'
  constructor <;> simp only [setC]
  case fifo => exact h.fifo
  case act => exact h.act
  case pool => exact h.pool
  case jobs => exact h.jobs
  case lockW => grind [Inv, holdsW]
  case lockC => grind [Inv, holdsC]
  case lockWB => grind
  case lockCB => grind
  case doze => grind [Inv, holdsW]
  case chk2 => grind
  case tk => exact h.tk
  case qw => grind [Inv, qWaiting]
  case dw => grind [Inv, dWaiting]
  case dk => grind
  case dn => grind [Inv, holdsW]
  case st => exact h.st

theorem inv_step {s s' : State} {a : Act} (h : Inv s) (hs : step s a = some (.ok s')) : Inv s' := by
  cases a with
  | schedule j =>
    simp only [step] at hs
    split at hs
    · simp at hs
    · split at hs
      · rename_i hl; cases hs; exact inv_schedule h hl
      · simp at hs
  | stop =>
    simp only [step] at hs
    split at hs
    · simp at hs
    · cases hs; exact inv_kill h
  | start n =>
    simp only [step] at hs
    split at hs
    · simp at hs
    · split at hs
      · cases hs; exact h
      · rename_i hst; cases hs; exact inv_start h (by simpa using hst)
  | w i =>
    simp only [step] at hs
    split at hs
    · simp at hs
    · simp at hs
    · rename_i pc _ hi
      split at hs
      · simp at hs
      · cases pc <;> simp only [wstep, acquire] at hs
        · split at hs
          · rename_i hl; cases hs; exact inv_enter h hi hl
          · simp at hs
        · split at hs
          · rename_i hc; cases hs; exact inv_check_wait h hi hc
          · rename_i hc; cases hs; exact inv_check_go h hi hc
        · cases hs; exact inv_presleep h hi
        · simp at hs
        · split at hs
          · rename_i hl; cases hs; exact inv_woken h hi hl
          · simp at hs
        · split at hs
          · rename_i hk; cases hs; exact inv_exit h hi hk
          · rename_i hk; cases hs; exact inv_check2 h hi (by simpa using hk)
        · split at hs
          · simp at hs
          · rename_i hq; cases hs; exact inv_take h hi hq
        · cases hs; exact inv_run h hi
        · split at hs
          · rename_i hl; cases hs; exact inv_done h hi hl
          · simp at hs
        · simp at hs
  | spurW i =>
    simp only [step] at hs
    split at hs
    · rename_i hi
      split at hs
      · simp at hs
      · cases hs; exact inv_spurW h hi
    · simp at hs
  | callWait k =>
    simp only [step] at hs
    split at hs
    · rename_i hi
      split at hs
      · simp at hs
      · cases hs; exact inv_c_plain h hi (by simp)
    · simp at hs
  | callJoin k =>
    simp only [step] at hs
    split at hs
    · rename_i hi
      split at hs
      · simp at hs
      · cases hs; exact inv_c_plain (inv_kill h) hi (by simp)
    · simp at hs
  | callDtor k =>
    simp only [step] at hs
    split at hs
    · rename_i hi
      split at hs
      · simp at hs
      · cases hs; exact inv_c_plain h hi (by simp)
    · simp at hs
  | spurC k =>
    simp only [step] at hs
    split at hs
    · rename_i hi
      split at hs
      · simp at hs
      · cases hs; exact inv_c_plain h hi (by simp)
    · rename_i hi
      split at hs
      · simp at hs
      · cases hs; exact inv_c_plain h hi (by simp)
    · simp at hs
  | c k =>
    simp only [step] at hs
    split at hs
    · simp at hs
    · simp at hs
    · simp at hs
    · rename_i pc _ _ hi
      split at hs
      · simp at hs
      · cases pc <;> simp only [cstep, acquire] at hs
        · simp at hs
        · split at hs
          · rename_i hl; cases hs; exact inv_c_acquire h hi hl (by simp)
          · simp at hs
        · split at hs
          · rename_i hc; cases hs; exact inv_wCheck_wait h hi hc
          · cases hs; exact inv_wCheck_ret h hi
        · cases hs; exact inv_wPresleep h hi
        · simp at hs
        · split at hs
          · rename_i hl; cases hs; exact inv_c_acquire h hi hl (by simp)
          · simp at hs
        · cases hs
          refine inv_c_plain (pc := .jNotify) (inv_notifyCond h) ?_ (by simp)
          simp [notifyCond, hi, wakeD]
        · split at hs
          · simp at hs
          · split at hs
            · cases hs; exact inv_c_plain h hi (by simp)
            · simp at hs
        · split at hs
          · rename_i hl; cases hs; exact inv_dEnter h hi hl
          · simp at hs
        · split at hs
          · rename_i hc; cases hs; exact inv_dCheck_wait h hi hc
          · cases hs; exact inv_dCheck_ret h hi
        · cases hs; exact inv_dPresleep h hi
        · simp at hs
        · split at hs
          · rename_i hl; cases hs; exact inv_c_acquire h hi hl (by simp)
          · simp at hs
        · simp at hs

theorem inv_exec {as : List Act} {s s' : State} (h : Inv s) (hs : exec s as = some s') : Inv s' := by
  induction as generalizing s with
  | nil => simp [exec] at hs; subst hs; exact h
  | cons a as ih =>
    simp only [exec] at hs
    split at hs
    · rename_i hst; exact ih (inv_step h hst) hs
    · simp at hs

theorem inv_reachable {s : State} (h : Reachable s) : Inv s := by
  obtain ⟨n, as, h⟩ := h
  exact inv_exec (inv_init n) h

end Verif.JobQueue
