import Verif.JobQueue.Trans

/-! # Termination measure and analysis of stuck states -/

namespace Verif.JobQueue

/-- No thread inside the queue's code can make a step of its own: no worker and no client call can
proceed (spurious wake-ups and new calls from outside do not count). -/
def Stuck (s : State) : Prop := (∀ i, step s (.w i) = none) ∧ (∀ k, step s (.c k) = none)

/-- Steps made by threads already inside the queue's code. -/
def Act.internal : Act → Bool
  | .w _ | .c _ => true
  | _ => false

/-- rank of a worker -/
def mw : WPC → Nat
  | .fin => 0 | .sleep => 0 | .presleep => 1 | .take => 1 | .check2 => 2 | .check => 3
  | .woken => 4 | .enter => 4 | .done _ => 4 | .run _ => 5
def live : WPC → Nat
  | .fin => 0
  | _ => 1
/-- rank of a client; `b` is the cost of the notification it still has to send -/
def mc (b : Nat) : CPC → Nat
  | .idle => 0 | .dFin => 0 | .wSleep => 1 | .dSleep => 1 | .wPresleep => 2 | .dPresleep => 2
  | .wCheck => 3 | .dCheck => 3 | .wWoken => 4 | .dWoken => 4 | .wEnter => 4
  | .jWait => 1 | .jNotify => b + 2 | .dEnter => b + 4

def wsum (s : State) : Nat :=
  (s.workers.map mw).sum + 6 * s.q.length + (s.workers.map live).sum * (5 * s.workers.length + 1)

def big (s : State) : Nat := 4 * s.clients.length + 1
def cost (s : State) : Nat := 4 * s.workers.length * big s + 4 * s.clients.length

/-- bounds the number of steps the threads can still make without outside help -/
def rank (s : State) : Nat := wsum s * big s + (s.clients.map (mc (cost s))).sum

theorem sum_set {α} {f : α → Nat} {l : List α} {i : Nat} {x y : α} (h : l[i]? = some x) :
    ((l.set i y).map f).sum + f x = (l.map f).sum + f y := by
  induction l generalizing i with
  | nil => simp at h
  | cons a l ih =>
    cases i with
    | zero => simp at h; subst h; simp; omega
    | succ i => simp at h; have := ih h; simp only [List.set_cons_succ, List.map_cons, List.sum_cons]; omega

theorem sum_map_le {α} {f g : α → Nat} {c : Nat} (l : List α) (h : ∀ a, f a ≤ g a + c) :
    (l.map f).sum ≤ (l.map g).sum + c * l.length := by
  induction l with
  | nil => simp
  | cons a l ih => have := h a; simp [Nat.mul_add]; omega

theorem sum_map_eq {α} {f g : α → Nat} (l : List α) (h : ∀ a, f a = g a) : (l.map f).sum = (l.map g).sum := by
  induction l with
  | nil => simp
  | cons a l ih => simp [h a, ih]

theorem mw_wake (p) : mw (wakeW p) ≤ mw p + 4 := by cases p <;> simp [mw, wakeW]
theorem live_wake (p) : live (wakeW p) = live p := by cases p <;> rfl
theorem mc_wakeD (b p) : mc b (wakeD p) ≤ mc b p + 3 := by cases p <;> simp [mc, wakeD]
theorem mc_wakeQ (b p) : mc b (wakeQ p) ≤ mc b p + 3 := by cases p <;> simp [mc, wakeQ]

/-- bookkeeping: a drop of the worker part pays for waking all clients -/
theorem rank_drop {W W' B C C' n : Nat} (hB : B = 4 * n + 1) (h : W' + 1 ≤ W) (hC : C' ≤ C + 4 * n) :
    W' * B + C' < W * B + C := by
  have : (W' + 1) * B ≤ W * B := Nat.mul_le_mul_right B h
  have e : (W' + 1) * B = W' * B + B := by rw [Nat.add_mul, Nat.one_mul]
  omega

theorem rank_notify {W W' B C C' n m : Nat} (h : W' ≤ W + 4 * n) (hC : C' + 4 * n * B + 4 * m + 1 ≤ C + 4 * m) :
    W' * B + C' < W * B + C := by
  have : W' * B ≤ (W + 4 * n) * B := Nat.mul_le_mul_right B h
  have e : (W + 4 * n) * B = W * B + 4 * n * B := by rw [Nat.add_mul]
  omega

theorem rank_same {W B C C' : Nat} (hC : C' < C) : W * B + C' < W * B + C := by omega

theorem rank_decreases {s s' : State} {a : Act} (ha : a.internal = true) (h : Tr s a s') : rank s' < rank s := by
  cases h <;> simp [Act.internal] at ha
  case enter i hi hl =>
    have h1 := sum_set (f := mw) (y := .check) hi
    have h2 := sum_set (f := live) (y := .check) hi
    simp only [mw, live] at h1 h2
    refine rank_drop (n := s.clients.length) rfl ?_ ?_
    · simp only [wsum, setW, List.length_set]
      have : (List.map live (s.workers.set i WPC.check)).sum = (List.map live s.workers).sum := by omega
      rw [this]; omega
    · simp [setW, cost, big]
  case check_wait i hi hc =>
    have h1 := sum_set (f := mw) (y := .presleep) hi
    have h2 := sum_set (f := live) (y := .presleep) hi
    simp only [mw, live] at h1 h2
    refine rank_drop (n := s.clients.length) rfl ?_ ?_
    · simp only [wsum, setW, List.length_set]
      have : (List.map live (s.workers.set i WPC.presleep)).sum = (List.map live s.workers).sum := by omega
      rw [this]; omega
    · simp [setW, cost, big]
  case check_go i hi hc =>
    have h1 := sum_set (f := mw) (y := .check2) hi
    have h2 := sum_set (f := live) (y := .check2) hi
    simp only [mw, live] at h1 h2
    refine rank_drop (n := s.clients.length) rfl ?_ ?_
    · simp only [wsum, setW, List.length_set]
      have : (List.map live (s.workers.set i WPC.check2)).sum = (List.map live s.workers).sum := by omega
      rw [this]; omega
    · simp [setW, cost, big]
  case presleep i hi =>
    have h1 := sum_set (f := mw) (y := .sleep) hi
    have h2 := sum_set (f := live) (y := .sleep) hi
    simp only [mw, live] at h1 h2
    refine rank_drop (n := s.clients.length) rfl ?_ ?_
    · simp only [wsum, setW, List.length_set]
      have : (List.map live (s.workers.set i WPC.sleep)).sum = (List.map live s.workers).sum := by omega
      rw [this]; omega
    · simp [setW, cost, big]
  case woken i hi hl =>
    have h1 := sum_set (f := mw) (y := .check) hi
    have h2 := sum_set (f := live) (y := .check) hi
    simp only [mw, live] at h1 h2
    refine rank_drop (n := s.clients.length) rfl ?_ ?_
    · simp only [wsum, setW, List.length_set]
      have : (List.map live (s.workers.set i WPC.check)).sum = (List.map live s.workers).sum := by omega
      rw [this]; omega
    · simp [setW, cost, big]
  case check2 i hi hk =>
    have h1 := sum_set (f := mw) (y := .take) hi
    have h2 := sum_set (f := live) (y := .take) hi
    simp only [mw, live] at h1 h2
    refine rank_drop (n := s.clients.length) rfl ?_ ?_
    · simp only [wsum, setW, List.length_set]
      have : (List.map live (s.workers.set i WPC.take)).sum = (List.map live s.workers).sum := by omega
      rw [this]; omega
    · simp [setW, cost, big]
  case take i j q hi hq =>
    have h1 := sum_set (f := mw) (y := .run j) hi
    have h2 := sum_set (f := live) (y := .run j) hi
    simp only [mw, live] at h1 h2
    refine rank_drop (n := s.clients.length) rfl ?_ ?_
    · simp only [wsum, setW, List.length_set, hq, List.length_cons]
      have : (List.map live (s.workers.set i (WPC.run j))).sum = (List.map live s.workers).sum := by omega
      rw [this]; omega
    · simp [setW, cost, big]
  case run i j hi =>
    have h1 := sum_set (f := mw) (y := .done j) hi
    have h2 := sum_set (f := live) (y := .done j) hi
    simp only [mw, live] at h1 h2
    refine rank_drop (n := s.clients.length) rfl ?_ ?_
    · simp only [wsum, setW, List.length_set]
      have : (List.map live (s.workers.set i (WPC.done j))).sum = (List.map live s.workers).sum := by omega
      rw [this]; omega
    · simp [setW, cost, big]
  case done i j hi hl =>
    have h1 := sum_set (f := mw) (y := .check) hi
    have h2 := sum_set (f := live) (y := .check) hi
    simp only [mw, live] at h1 h2
    have hb : big (notifyWork (setW { s with lock := some (.W i), active := s.active - 1 } i .check)) = big s := by
      simp [big, notifyWork, setW]
    have hcst : cost (notifyWork (setW { s with lock := some (.W i), active := s.active - 1 } i .check)) = cost s := by
      simp [cost, hb]; simp [notifyWork, setW]
    unfold rank
    rw [hb, hcst]
    refine rank_drop (n := s.clients.length) rfl ?_ ?_
    · simp only [wsum, setW, notifyWork, List.length_set]
      have : (List.map live (s.workers.set i WPC.check)).sum = (List.map live s.workers).sum := by omega
      rw [this]; omega
    · simp only [notifyWork, setW, List.map_map]
      have := sum_map_le (f := mc (cost s) ∘ wakeQ) (g := mc (cost s)) s.clients (mc_wakeQ _)
      omega
  case exit i hi hk =>
    have h1 := sum_set (f := mw) (y := .fin) hi
    have h2 := sum_set (f := live) (y := .fin) hi
    simp only [mw, live] at h1 h2
    have hb : big (notifyCond (setW { s with inPool := s.inPool - 1, lock := none } i .fin)) = big s := by
      simp [big, notifyCond, setW]
    have hcst : cost (notifyCond (setW { s with inPool := s.inPool - 1, lock := none } i .fin)) = cost s := by
      simp [cost, hb]; simp [notifyCond, setW]
    unfold rank
    rw [hb, hcst]
    refine rank_drop (n := s.clients.length) rfl ?_ ?_
    · simp only [wsum, setW, notifyCond, List.length_set, List.length_map, List.map_map]
      have e1 := sum_map_le (f := mw ∘ wakeW) (g := mw) (s.workers.set i .fin) mw_wake
      have e2 := sum_map_eq (f := live ∘ wakeW) (g := live) (s.workers.set i .fin) live_wake
      rw [e2]
      have e3 : (List.map live s.workers).sum = (List.map live (s.workers.set i .fin)).sum + 1 := by omega
      rw [e3, Nat.add_mul, Nat.one_mul]
      simp only [List.length_set] at e1
      omega
    · simp only [notifyCond, setW, List.map_map]
      have := sum_map_le (f := mc (cost s) ∘ wakeD) (g := mc (cost s)) s.clients (mc_wakeD _)
      omega
  case wAcquire k pc hi hp hl =>
    have h1 := sum_set (f := mc (cost s)) (y := .wCheck) hi
    have : mc (cost s) pc = 4 := by rcases hp with rfl | rfl <;> rfl
    rw [this] at h1; simp only [mc] at h1
    simp only [rank, wsum, setC, big, cost, List.length_set] at h1 ⊢
    apply rank_same; omega
  case wCheck_wait k hi hc =>
    have h1 := sum_set (f := mc (cost s)) (y := .wPresleep) hi
    simp only [mc] at h1
    simp only [rank, wsum, setC, big, cost, List.length_set] at h1 ⊢
    apply rank_same; omega
  case wCheck_ret k hi ha hq =>
    have h1 := sum_set (f := mc (cost s)) (y := .idle) hi
    simp only [mc] at h1
    simp only [rank, wsum, setC, big, cost, List.length_set] at h1 ⊢
    apply rank_same; omega
  case wPresleep k hi =>
    have h1 := sum_set (f := mc (cost s)) (y := .wSleep) hi
    simp only [mc] at h1
    simp only [rank, wsum, setC, big, cost, List.length_set] at h1 ⊢
    apply rank_same; omega
  case jWait k hi hs hf =>
    have h1 := sum_set (f := mc (cost s)) (y := .idle) hi
    simp only [mc] at h1
    simp only [rank, wsum, setC, big, cost, List.length_set] at h1 ⊢
    apply rank_same; omega
  case dCheck_wait k hi hc =>
    have h1 := sum_set (f := mc (cost s)) (y := .dPresleep) hi
    simp only [mc] at h1
    simp only [rank, wsum, setC, big, cost, List.length_set] at h1 ⊢
    apply rank_same; omega
  case dCheck_ret k hi hc =>
    have h1 := sum_set (f := mc (cost s)) (y := .dFin) hi
    simp only [mc] at h1
    simp only [rank, wsum, setC, big, cost, List.length_set] at h1 ⊢
    apply rank_same; omega
  case dPresleep k hi =>
    have h1 := sum_set (f := mc (cost s)) (y := .dSleep) hi
    simp only [mc] at h1
    simp only [rank, wsum, setC, big, cost, List.length_set] at h1 ⊢
    apply rank_same; omega
  case dWoken k hi hl =>
    have h1 := sum_set (f := mc (cost s)) (y := .dCheck) hi
    simp only [mc] at h1
    simp only [rank, wsum, setC, big, cost, List.length_set] at h1 ⊢
    apply rank_same; omega
  case jNotify k hi =>
    have hwk : (s.clients.map wakeD)[k]? = some .jNotify := by simp [hi, wakeD]
    have h1 := sum_set (f := mc (cost s)) (y := .jWait) hwk
    have h2 := sum_map_le (f := mc (cost s) ∘ wakeD) (g := mc (cost s)) s.clients (mc_wakeD _)
    have hb : big (setC (notifyCond s) k .jWait) = big s := by simp [big, notifyCond, setC]
    have hcst : cost (setC (notifyCond s) k .jWait) = cost s := by
      simp [cost, hb]; simp [notifyCond, setC]
    unfold rank
    rw [hb, hcst]
    refine rank_notify (n := s.workers.length) (m := s.clients.length) ?_ ?_
    · simp only [wsum, setC, notifyCond, List.length_map, List.map_map]
      have e1 := sum_map_le (f := mw ∘ wakeW) (g := mw) s.workers mw_wake
      have e2 := sum_map_eq (f := live ∘ wakeW) (g := live) s.workers live_wake
      rw [e2]; omega
    · simp only [mc, List.map_map] at h1
      simp only [setC, notifyCond]
      have : cost s = 4 * s.workers.length * big s + 4 * s.clients.length := rfl
      omega
  case dEnter k hi hl =>
    have hwk : (s.clients.map wakeD)[k]? = some .dEnter := by simp [hi, wakeD]
    have h1 := sum_set (f := mc (cost s)) (y := .dCheck) hwk
    have h2 := sum_map_le (f := mc (cost s) ∘ wakeD) (g := mc (cost s)) s.clients (mc_wakeD _)
    have hb : big (setC (notifyCond { s with lock := some (.C k), kill := true }) k .dCheck) = big s := by
      simp [big, notifyCond, setC]
    have hcst : cost (setC (notifyCond { s with lock := some (.C k), kill := true }) k .dCheck) = cost s := by
      simp [cost, hb]; simp [notifyCond, setC]
    unfold rank
    rw [hb, hcst]
    refine rank_notify (n := s.workers.length) (m := s.clients.length) ?_ ?_
    · simp only [wsum, setC, notifyCond, List.length_map, List.map_map]
      have e1 := sum_map_le (f := mw ∘ wakeW) (g := mw) s.workers mw_wake
      have e2 := sum_map_eq (f := live ∘ wakeW) (g := live) s.workers live_wake
      rw [e2]; omega
    · simp only [mc, List.map_map] at h1
      simp only [setC, notifyCond]
      have : cost s = 4 * s.workers.length * big s + 4 * s.clients.length := rfl
      omega

/-- Without outside help the threads can make at most `rank s` steps. -/
theorem exec_bounded {as : List Act} {s s' : State} (ha : ∀ a ∈ as, a.internal = true)
    (h : exec s as = some s') : as.length + rank s' ≤ rank s := by
  induction as generalizing s with
  | nil => simp [exec] at h; subst h; simp
  | cons a as ih =>
    simp only [exec] at h
    split at h
    · rename_i s1 hst
      have h1 := rank_decreases (ha a (by simp)) (step_tr hst).2
      have h2 := ih (fun b hb => ha b (by simp [hb])) h
      simp only [List.length_cons]; omega
    · simp at h

/-- In a stuck state the mutex is free and every worker sleeps or has returned. -/
theorem stuck_shape {s : State} (hI : Inv s) (hf : s.freed = false) (h : Stuck s) :
    s.lock = none ∧ (∀ (i : Nat) (pc : WPC), s.workers[i]? = some pc → pc = .sleep ∨ pc = .fin) ∧
    (∀ (k : Nat) (pc : CPC), s.clients[k]? = some pc → pc = .idle ∨ pc = .wSleep ∨ pc = .dSleep ∨ pc = .dFin ∨
      (pc = .jWait ∧ s.started = true ∧ ∃ p ∈ s.workers, p ≠ .fin)) := by
  have hl : s.lock = none := by
    cases hl : s.lock with
    | none => rfl
    | some t =>
      cases t with
      | W i =>
        have hb := hI.lockWB i hl
        have hg : s.workers[i]? = some s.workers[i] := by simp [hb]
        have hh := (hI.lockW i _ hg).2 hl
        have := h.1 i
        simp only [step, hg, hf] at this
        generalize s.workers[i] = pc at *
        cases pc <;> simp [holdsW] at hh <;> simp [wstep] at this
        · split at this <;> simp at this
        · split at this <;> simp at this
        · split at this <;> simp at this
      | C k =>
        have hb := hI.lockCB k hl
        have hg : s.clients[k]? = some s.clients[k] := by simp [hb]
        have hh := (hI.lockC k _ hg).2 hl
        have := h.2 k
        simp only [step, hg, hf] at this
        generalize s.clients[k] = pc at *
        cases pc <;> simp [holdsC] at hh <;> simp [cstep] at this
        · split at this <;> simp at this
        · split at this <;> simp at this
  refine ⟨hl, ?_, ?_⟩
  · intro i pc hi
    have := h.1 i
    simp only [step, hi, hf] at this
    cases pc <;> simp [wstep, acquire, hl] at this ⊢
    · split at this <;> simp at this
    · split at this <;> simp at this
    · split at this <;> simp at this
  · intro k pc hk
    have := h.2 k
    simp only [step, hk, hf] at this
    cases pc <;> simp [cstep, acquire, hl] at this ⊢
    · split at this <;> simp at this
    · split at this
      · simp at this
      · rename_i hst
        simp at hst
        refine ⟨hst, ?_⟩
        simpa using this
    · split at this <;> simp at this

end Verif.JobQueue
