import Verif.Kinematics.Transf

/-!
# Model of `plotCoordinateFrame` (`sm_python/python/sm/plotCoordinateFrame.py`)

Real numbers instead of floats.  An axis of matplotlib is the list of lines it was told to draw.
-/

namespace Verif.Python.Frame

open Verif.Kinematics

/-- one call `axis.plot3D(xs, ys, zs, format, linewidth=…)` with arrays of two numbers -/
structure Line where
  xs : Fin 2 → ℝ
  ys : Fin 2 → ℝ
  zs : Fin 2 → ℝ
  format : String
  linewidth : ℝ

/-- `p_f = numpy.array([[0,0,0,1], [size,0,0,1], [0,size,0,1], [0,0,size,1]]).T` (plotCoordinateFrame.py:36, 78) -/
def pointsInFrame (size : ℝ) : M4 := (!![0, 0, 0, 1; size, 0, 0, 1; 0, size, 0, 1; 0, 0, size, 1] : M4).transpose

/-- `numpy.append([p_0[:,a].T], [p_0[:,b].T], axis=0)` (plotCoordinateFrame.py:40-42): two rows -/
def twoPoints (p0 : M4) (a b : Fin 4) : Matrix (Fin 2) (Fin 4) ℝ := !![p0 0 a, p0 1 a, p0 2 a, p0 3 a; p0 0 b, p0 1 b, p0 2 b, p0 3 b]

/-- `axis.plot3D(X[:,0], X[:,1], X[:,2], format, linewidth=linewidth)` (plotCoordinateFrame.py:43-45) -/
def plot3D (X : Matrix (Fin 2) (Fin 4) ℝ) (format : String) (linewidth : ℝ) : Line :=
  ⟨fun r => X r 0, fun r => X r 1, fun r => X r 2, format, linewidth⟩

/-- `plotCoordinateFrame` (plotCoordinateFrame.py:6-45) -/
def plotCoordinateFrame (T : M4) (size linewidth : ℝ) : List Line :=
  let p0 := T * pointsInFrame size
  [plot3D (twoPoints p0 0 1) "r-" linewidth, plot3D (twoPoints p0 0 2) "g-" linewidth, plot3D (twoPoints p0 0 3) "b-" linewidth]

/-- `plot2DCoordinateFrame` (plotCoordinateFrame.py:48-86), on an axis in three dimensions, where `plot` with three arrays does what `plot3D` does -/
def plot2DCoordinateFrame (T : M4) (size linewidth : ℝ) : List Line :=
  let p0 := T * pointsInFrame size
  [plot3D (twoPoints p0 0 1) "r-" linewidth, plot3D (twoPoints p0 0 2) "g-" linewidth]

end Verif.Python.Frame
