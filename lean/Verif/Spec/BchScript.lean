import Verif.Spec.Qubits

/-! # The Baker-Campbell-Hausdorff series up to third order -/

namespace Oranssi.Spec

/-- The commutator. -/
def qcomm {n : ℕ} (A B : QMat n) : QMat n := A * B - B * A

/-- The terms of order 1, 2, 3 of `log (exp A * exp B)`. -/
noncomputable def bchOrder {n : ℕ} (A B : QMat n) : ℕ → QMat n
  | 1 => A + B
  | 2 => (1 / 2 : ℂ) • qcomm A B
  | 3 => (1 / 12 : ℂ) • (qcomm A (qcomm A B) + qcomm B (qcomm B A))
  | _ => 0

end Oranssi.Spec
