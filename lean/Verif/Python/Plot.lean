/-!
# Model of `PlotCollection` (`sm_python/python/sm/PlotCollection.py`)

Tab names and figures are any types (`collections.OrderedDict` only compares the names).  The window toolkit is modelled by what it is told: the title, the size and the pages in their order.
-/

namespace Verif.Python.Plot

variable {N F : Type} [DecidableEq N]

/-- `PlotCollection` (PlotCollection.py:35-37): the window's name, its size and the `OrderedDict` as the sequence of its items -/
structure Collection (N F : Type) where
  frameName : String
  windowSize : Nat × Nat
  figureList : List (N × F)

/-- `PlotCollection(window_name, window_size)` (PlotCollection.py:12-37) -/
def create (name : String) (size : Nat × Nat) : Collection N F := ⟨name, size, []⟩

/-- `d[k] = v` of an `OrderedDict`: a present key keeps its place -/
def setItem (d : List (N × F)) (k : N) (v : F) : List (N × F) := match d with
  | [] => [(k, v)]
  | (k', v') :: rest => if k' = k then (k', v) :: rest else (k', v') :: setItem rest k v

/-- `d.pop(k, None)` -/
def pop (d : List (N × F)) (k : N) : List (N × F) := match d with
  | [] => []
  | (k', v') :: rest => if k' = k then rest else (k', v') :: pop rest k

/-- `add_figure` (PlotCollection.py:39-43) -/
def addFigure (c : Collection N F) (tabname : N) (fig : F) : Collection N F :=
  { c with figureList := setItem c.figureList tabname fig }

/-- `delete_figure` (PlotCollection.py:45-49) -/
def deleteFigure (c : Collection N F) (name : N) : Collection N F :=
  { c with figureList := pop c.figureList name }

/-- what appears on the screen: nothing, or one window with tabs -/
inductive Shown (N F : Type) where
  | nothing
  | window (title : String) (size : Nat × Nat) (tabs : List (N × F))
deriving DecidableEq

/-- `d[k]` -/
def getItem (d : List (N × F)) (k : N) : Option F := match d with
  | [] => none
  | (k', v') :: rest => if k' = k then some v' else getItem rest k

/-- the loop over the names that adds the pages (PlotCollection.py:60-61, 87-89); `none` = `KeyError` -/
def pages (d : List (N × F)) : List N → Option (List (N × F))
  | [] => some []
  | n :: ns => match getItem d n, pages d ns with
    | some f, some r => some ((n, f) :: r)
    | _, _ => none

/-- `show` (PlotCollection.py:51-63) -/
def «show» (c : Collection N F) : Option (Shown N F) :=
  if (c.figureList.map Prod.fst).length = 0 then some .nothing
  else (pages c.figureList (c.figureList.map Prod.fst)).map (.window c.frameName c.windowSize)

/-- the calls of a user -/
inductive Call (N F : Type) where
  | add (name : N) (fig : F)
  | delete (name : N)

def step (c : Collection N F) : Call N F → Collection N F
  | .add n f => addFigure c n f
  | .delete n => deleteFigure c n

def run (c : Collection N F) (calls : List (Call N F)) : Collection N F := calls.foldl step c

end Verif.Python.Plot
