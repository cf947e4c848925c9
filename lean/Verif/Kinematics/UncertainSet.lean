import Verif.Kinematics.Uncertain

/-!
# Model of the functions that change an uncertain point or transformation in place

`UncertainHomogeneousPoint` and `UncertainTransformation` inherit from `HomogeneousPoint` and `Transformation` the functions that change
the value, and override only `normalize` and `setRandom`.  `setRandom` is in `RandomDraw.lean`; writing through `pptr()`, `qptr()`,
`tptr()` is not modelled.  Arithmetic is exact.
-/

namespace Verif.Kinematics

/-- the calls that change a point -/
inductive PointOp
  /-- `P = v` with a 4-vector or (after `toHomogeneous`) a 3-vector.  For a `HomogeneousPoint` this is `operator=` (HomogeneousPoint.cpp:72-86); in
  `UncertainHomogeneousPoint` the implicit copy assignment hides it, so `v` is first converted by the constructors without uncertainty
  (UncertainHomogeneousPoint.cpp:18-30). -/
  | assign (v : V4)
  /-- the same through a reference to the base class, `static_cast<HomogeneousPoint &>(P) = v` -/
  | assignBase (v : V4)
  /-- `set` (HomogeneousPoint.hpp:131-155) with a 3-vector -/
  | set3 (v : V3)
  /-- `set` with a 4-vector -/
  | set4 (v : V4)
  /-- `setZero` (HomogeneousPoint.cpp:203-207) -/
  | setZero
  /-- `scale` (124-129) -/
  | scale (s : ℝ)
  /-- `oplus` (104-107) -/
  | oplus (dp : V3)
  /-- `convertToVector` (110-113) -/
  | toVector
  /-- `convertToPoint` (116-121) -/
  | toPoint
  /-- `normalize` (198-201; UncertainHomogeneousPoint.cpp:145-151) -/
  | normalize

/-- the call on a `HomogeneousPoint` -/
noncomputable def PointOp.onPoint (p : V4) : PointOp → V4
  | .assign v => v
  | .assignBase v => v
  | .set3 v => ![v 0, v 1, v 2, 1]
  | .set4 v => ![v 0, v 1, v 2, v 3]
  | .setZero => hpZero
  | .scale s => hpScale p s
  | .oplus dp => hpOplus p dp
  | .toVector => hpConvertToVector p
  | .toPoint => hpConvertToPoint p
  | .normalize => hpNormalize p

/-- the call on an `UncertainHomogeneousPoint`: the inherited functions work on `_ph` alone; `convertToPoint` (116-121) calls the virtual
`normalize`, then sets the last entry -/
noncomputable def PointOp.onUncertain (P : UPoint) : PointOp → UPoint
  | .assign v => .ofPoint v
  | .assignBase v => { P with p := v }
  | .set3 v => { P with p := ![v 0, v 1, v 2, 1] }
  | .set4 v => { P with p := ![v 0, v 1, v 2, v 3] }
  | .setZero => { P with p := hpZero }
  | .scale s => { P with p := hpScale P.p s }
  | .oplus dp => { P with p := hpOplus P.p dp }
  | .toVector => { P with p := hpConvertToVector P.p }
  | .toPoint => { P.normalize with p := ![P.normalize.p 0, P.normalize.p 1, P.normalize.p 2, 1] }
  | .normalize => P.normalize

/-- the calls that change a transformation -/
inductive TransfOp
  /-- `set` (Transformation.cpp:57-61) -/
  | set (T : M4)
  /-- `setIdentity` (151-155) -/
  | setIdentity
  /-- `oplus` (137-141) -/
  | oplus (dt : V6)
  /-- assignment of a `Transformation`: the implicit copy assignment of the class (in `UncertainTransformation`, after the conversion by the
  constructor of UncertainTransformation.cpp:75-79) -/
  | assign (X : Transformation)
  /-- the same through a reference to the base class -/
  | assignBase (X : Transformation)

/-- the call on a `Transformation` -/
noncomputable def TransfOp.onTransf (X : Transformation) : TransfOp → Transformation
  | .set T => .ofMatrix T
  | .setIdentity => .identity
  | .oplus dt => X.oplus dt
  | .assign Y => Y
  | .assignBase Y => Y

/-- the call on an `UncertainTransformation` -/
noncomputable def TransfOp.onUncertain (P : UTransf) : TransfOp → UTransf
  | .set T => { P with X := .ofMatrix T }
  | .setIdentity => { P with X := .identity }
  | .oplus dt => { P with X := P.X.oplus dt }
  | .assign Y => ⟨Y, 0⟩
  | .assignBase Y => { P with X := Y }

end Verif.Kinematics
