import Verif.Model.QuadObject
import Verif.Model.Project

/-! # Model of `Series.project` -/

namespace Hermipy

variable {F : Type}

/-- `Series.project` for a list of directions. series.py:183-192. -/
noncomputable def series_project (f : HSeries (SFn F)) (directions : List ℕ) : Out (HSeries (SFn F)) := do
  let rel_dirs ← directions.mapM fun d => pyindex f.position.dirs d
  let p_coeffs ← project_vec f.index_set f.coeffs f.position.dim rel_dirs
  let p_pos ← pos_project f.position directions
  let factor ← fn_project f.factor.toFn directions
  mkSeries p_coeffs p_pos (SFn.ofProduct factor) f.index_set

end Hermipy
