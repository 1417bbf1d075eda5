import Verif.Lemmas.Descent
import Verif.Props.LieLayersMore

/-! # Property C56: a layer step is a descent direction -/

namespace Oranssi
open Spec
open scoped Matrix

/-- The generators of the update factors of one group. -/
noncomputable def groupGens {n : ℕ} (trot : Bool) (phi : Ket n) (obs : QMat n) (ps : List (QMat n)) : List (QMat n) :=
  if trot then ps.map (fun p => (-(1 / 2 ^ n : ℝ) : ℂ) • (omegaC phi p obs • p))
  else [(-(1 / 2 ^ n : ℝ) : ℂ) • (ps.map (fun p => omegaC phi p obs • p)).sum]

theorem groupFactors_gens {n : ℕ} (eta : ℝ) (trot : Bool) (phi : Ket n) (obs : QMat n) (ps : List (QMat n)) :
    groupFactors eta trot phi obs ps = (groupGens trot phi obs ps).map (fun A => NormedSpace.exp ((eta : ℂ) • A)) := by
  have e : ∀ A : QMat n, (-(eta / 2 ^ n : ℝ) : ℂ) • A = (eta : ℂ) • ((-(1 / 2 ^ n : ℝ) : ℂ) • A) := by
    intro A; rw [smul_smul]; congr 1; push_cast; ring
  cases trot
  · simp only [groupFactors, groupGens, e, Bool.false_eq_true, if_false, List.map_cons, List.map_nil]
  · simp only [groupFactors, groupGens, List.map_map, Function.comp_def, e, if_true]

theorem sum_map_smul {n : ℕ} (c : ℂ) (l : List (QMat n)) : (l.map (fun A => c • A)).sum = c • l.sum := by
  induction l with
  | nil => simp
  | cons a l ih => simp [ih]

theorem groupGens_sum {n : ℕ} (trot : Bool) (phi : Ket n) (obs : QMat n) (ps : List (QMat n)) :
    (groupGens trot phi obs ps).sum = (-(1 / 2 ^ n : ℝ) : ℂ) • (ps.map (fun p => omegaC phi p obs • p)).sum := by
  cases trot
  · simp [groupGens]
  · have := sum_map_smul (-(1 / 2 ^ n : ℝ) : ℂ) (ps.map (fun p => omegaC phi p obs • p))
    rw [List.map_map] at this
    simpa [groupGens, Function.comp_def] using this

theorem flatMap_sum {n : ℕ} {α : Type*} (l : List α) (f : α → List (QMat n)) : (l.flatMap f).sum = (l.map (fun a => (f a).sum)).sum := by
  induction l with
  | nil => simp
  | cons a l ih => simp [ih]

theorem map_flatten_sum {n : ℕ} (gl : List (List (QMat n))) (f : QMat n → QMat n) :
    (gl.map (fun g => (g.map f).sum)).sum = (gl.flatten.map f).sum := by
  induction gl with
  | nil => simp
  | cons a l ih => simp [ih]

theorem omegaC_add {n : ℕ} (φ : Ket n) (P A B : QMat n) : omegaC φ P (A + B) = omegaC φ P A + omegaC φ P B := by
  unfold omegaC
  rw [← dotProduct_add, ← Matrix.add_mulVec]
  congr 2
  rw [Matrix.mul_add, Matrix.add_mul]; abel

theorem omegaC_zero {n : ℕ} (φ : Ket n) (P : QMat n) : omegaC φ P 0 = 0 := by simp [omegaC]

/-- Summing the generators over the observables gives the gradients of the total observable. -/
theorem omegaC_obs_sum {n : ℕ} (φ : Ket n) (ps : List (QMat n)) : ∀ os : List (QMat n),
    (os.map (fun o => (ps.map (fun p => omegaC φ p o • p)).sum)).sum = (ps.map (fun p => omegaC φ p os.sum • p)).sum := by
  intro os
  induction os with
  | nil => simp [omegaC_zero]
  | cons o os ih =>
    rw [List.map_cons, List.sum_cons, ih, List.sum_cons, ← List.sum_map_add]
    simp [omegaC_add, add_smul]

theorem quad_sum {n : ℕ} (φ : Ket n) (H : QMat n) (hH : Hᴴ = H) : ∀ ps : List (QMat n), (∀ p ∈ ps, pᴴ = p) →
    (star φ ⬝ᵥ ((H * ((-(1 / 2 ^ n : ℝ) : ℂ) • (ps.map (fun p => omegaC φ p H • p)).sum) -
      ((-(1 / 2 ^ n : ℝ) : ℂ) • (ps.map (fun p => omegaC φ p H • p)).sum) * H) *ᵥ φ)).re =
    -(1 / 2 ^ n) * (ps.map (fun p => (omegaC φ p H).im ^ 2)).sum := by
  intro ps
  induction ps with
  | nil => intro _; simp
  | cons p ps ih =>
    intro h
    have h1 := ih (fun q hq => h q (List.mem_cons_of_mem _ hq))
    have hp := omegaC_eq φ (h p List.mem_cons_self) hH
    set S := (ps.map (fun p => omegaC φ p H • p)).sum with hS
    set c : ℂ := (-(1 / 2 ^ n : ℝ) : ℂ) with hc
    have e : H * (c • (omegaC φ p H • p + S)) - (c • (omegaC φ p H • p + S)) * H =
        (-(c * omegaC φ p H)) • (p * H - H * p) + (H * (c • S) - (c • S) * H) := by
      simp only [smul_add, Matrix.mul_add, Matrix.add_mul, Matrix.mul_smul, Matrix.smul_mul, smul_sub, neg_smul, smul_smul]
      abel
    rw [List.map_cons, List.sum_cons, List.map_cons, List.sum_cons, ← hS, e, Matrix.add_mulVec, dotProduct_add, Complex.add_re, h1,
      Matrix.smul_mulVec, dotProduct_smul, smul_eq_mul]
    have : (-(c * omegaC φ p H) * (star φ ⬝ᵥ ((p * H - H * p) *ᵥ φ))).re = -(1 / 2 ^ n) * (omegaC φ p H).im ^ 2 := by
      show (-(c * omegaC φ p H) * omegaC φ p H).re = _
      rw [hp, hc]
      simp only [Complex.mul_im, Complex.I_re, Complex.I_im, Complex.ofReal_re, Complex.ofReal_im]
      have : (-(-((1 / 2 ^ n : ℝ) : ℂ) * (Complex.I * ((omegaC φ p H).im : ℂ))) * (Complex.I * ((omegaC φ p H).im : ℂ))) =
          ((-(1 / 2 ^ n) * (omegaC φ p H).im ^ 2 : ℝ) : ℂ) := by
        push_cast
        linear_combination (1 / 2 ^ n * ((omegaC φ p H).im : ℂ) ^ 2) * Complex.I_sq
      rw [this, Complex.ofReal_re]
      ring
    rw [this]; ring

/-- The slope of a whole sweep. -/
theorem deriv_sweep {n : ℕ} (gs : List (Gate n)) (hH : ∀ g ∈ gs, g.Aᴴ = g.A) (groups : List (List (QMat n)))
    (hp : ∀ g ∈ groups, ∀ p ∈ g, pᴴ = p) (trot : Bool) (U : QMat n) :
    HasDerivAt (fun η : ℝ => cost (totalObs gs) (((gs.map (fun g => full n g.ws g.A)).flatMap (fun o => groups.flatMap
      (groupFactors η trot (stateFromUnitary U) o))).foldl (fun U F => F * U) U))
      (-(1 / 2 ^ n) * (groups.flatten.map (fun p => grad (totalObs gs) U p ^ 2)).sum) 0 := by
  set φ := stateFromUnitary U
  have hT := totalObs_herm gs hH
  have hps : ∀ p ∈ groups.flatten, pᴴ = p := by
    intro p hp'
    obtain ⟨g, hg, hpg⟩ := List.mem_flatten.1 hp'
    exact hp g hg p hpg
  set As : List (QMat n) := (gs.map (fun g => full n g.ws g.A)).flatMap (fun o => groups.flatMap (groupGens trot φ o)) with hAs
  have e1 : ∀ η : ℝ, (gs.map (fun g => full n g.ws g.A)).flatMap (fun o => groups.flatMap (groupFactors η trot φ o)) =
      As.map (fun A => NormedSpace.exp ((η : ℂ) • A)) := by
    intro η
    rw [hAs, List.map_flatMap]
    congr 1; funext o
    rw [List.map_flatMap]
    congr 1; funext g
    exact groupFactors_gens η trot φ o g
  have e2 : As.sum = (-(1 / 2 ^ n : ℝ) : ℂ) • (groups.flatten.map (fun p => omegaC φ p (totalObs gs) • p)).sum := by
    rw [hAs, flatMap_sum]
    have : ∀ o : QMat n, (groups.flatMap (groupGens trot φ o)).sum = (-(1 / 2 ^ n : ℝ) : ℂ) • (groups.flatten.map (fun p => omegaC φ p o • p)).sum := by
      intro o
      rw [flatMap_sum]
      simp only [groupGens_sum]
      rw [← map_flatten_sum, ← sum_map_smul, List.map_map]
      rfl
    simp only [this]
    rw [totalObs, ← omegaC_obs_sum, ← sum_map_smul]
    simp only [List.map_map]
    rfl
  have hskew : As.sumᴴ = -As.sum := by
    rw [e2]
    apply real_smul_skew
    apply sum_skew
    intro A hA
    obtain ⟨p, hp', rfl⟩ := List.mem_map.1 hA
    exact omegaC_smul_skew φ (hps p hp') hT
  have h := deriv_cost_exp (totalObs gs) U As hskew
  simp only [e1]
  convert h using 1
  rw [e2]
  exact (quad_sum φ (totalObs gs) hT groups.flatten hps).symm

theorem descends {f : ℝ → ℝ} {s : ℝ} (h : HasDerivAt f s 0) (hs : s < 0) : ∃ δ > 0, ∀ η, 0 < η → η < δ → f η < f 0 := by
  have h1 := (hasDerivAt_iff_tendsto_slope.1 h).eventually (gt_mem_nhds hs)
  rw [eventually_nhdsWithin_iff, Metric.eventually_nhds_iff] at h1
  obtain ⟨δ, hδ, h2⟩ := h1
  refine ⟨δ, hδ, fun η h0 h1 => ?_⟩
  have h3 := h2 (y := η) (by rw [Real.dist_eq, sub_zero, abs_of_pos h0]; exact h1) h0.ne'
  rw [slope_def_field, sub_zero, div_neg_iff] at h3
  rcases h3 with h3 | h3 <;> linarith

theorem slope_neg {n : ℕ} {H U : QMat n} {ps : List (QMat n)} (h : ∃ P ∈ ps, grad H U P ≠ 0) :
    -(1 / 2 ^ n) * (ps.map (fun P => grad H U P ^ 2)).sum < 0 := by
  have : 0 < (ps.map (fun P => grad H U P ^ 2)).sum := by
    obtain ⟨P, hP, hg⟩ := h
    have h1 := List.single_le_sum (l := ps.map (fun P => grad H U P ^ 2)) (by
      intro x hx
      obtain ⟨Q, -, rfl⟩ := List.mem_map.1 hx
      positivity) _ (List.mem_map.2 ⟨P, hP, rfl⟩)
    have h2 : 0 < grad H U P ^ 2 := by positivity
    linarith
  have h2 : (0 : ℝ) < 1 / 2 ^ n := by positivity
  nlinarith

/-- C56 (Local): for any observables, directions and options, the cost after the layer's step of size `η` has at `η = 0` the derivative
`-Σ_P grad_P² / 2^n ≤ 0`, the sum running over the operators of the layer; if some of these gradients is not zero, every small enough
step lowers the cost. -/
theorem C56_local {n : ℕ} (gs : List (Gate n)) (hH : ∀ g ∈ gs, g.Aᴴ = g.A) (locality : ℤ) (args : LayerArgs) (stride : Option ℤ)
    (D : Option (List String)) (L : LocalLayer n) (hL : localLayer n (gs.map Gate.obs) locality args stride D = .ok L)
    (hne : D ≠ some [] ∨ L.trotterize = true) (svd : SvdFn n) (hs : ValidSvd svd) (U : QMat n) :
    ∃ V : ℝ → QMat n, (∀ η, (L.setEta η).call svd U = .ok (V η)) ∧
      HasDerivAt (fun η => cost (totalObs gs) (V η)) (-(1 / 2 ^ n) * (L.fullPaulis.flatten.map (fun P => grad (totalObs gs) U P ^ 2)).sum) 0 ∧
      ((∃ g ∈ L.fullPaulis, ∃ P ∈ g, grad (totalObs gs) U P ≠ 0) → ∃ δ > 0, ∀ η, 0 < η → η < δ → cost (totalObs gs) (V η) < cost (totalObs gs) U) := by
  have hob : L.observables = gs.map (fun g => full n g.ws g.A) := by
    obtain ⟨k, e0, b, t, hk, rfl, he, hb, ht, hL'⟩ := localLayer_ok gs (localLayer_inv gs hL)
    rw [hL'] at hL
    have hLe := Except.ok.inj hL
    subst hLe
    rfl
  have h0 := localLayer_call hH hL hs 0 U hne
  have hd := deriv_sweep gs hH L.fullPaulis h0.1 L.trotterize U
  rw [← hob] at hd
  refine ⟨_, fun η => (localLayer_call hH hL hs η U hne).2.2, hd, ?_⟩
  rintro ⟨g, hg, P, hP, hgr⟩
  obtain ⟨δ, hδ, h⟩ := descends hd (slope_neg ⟨P, List.mem_flatten.2 ⟨g, hg, hP⟩, hgr⟩)
  refine ⟨δ, hδ, fun η h1 h2 => ?_⟩
  have h3 := h η h1 h2
  have hz := C29_local gs hH locality args stride D L hL hne svd hs 0 U (Or.inl rfl)
  rw [h0.2.2] at hz
  rw [Except.ok.inj hz] at h3
  exact h3

/-- C56 (Custom): the same for explicit directions. -/
theorem C56_custom {n : ℕ} (gs : List (Gate n)) (hH : ∀ g ∈ gs, g.Aᴴ = g.A) (D : List String) (args : LayerArgs)
    (L : CustomLayer n) (hL : customLayer n (gs.map Gate.obs) (some D) args = .ok L) (hne : (∃ d ∈ D, d.toList.length ≤ n) ∨ L.trotterize = true)
    (svd : SvdFn n) (hs : ValidSvd svd) (U : QMat n) :
    ∃ (V : ℝ → QMat n) (ps : List (QMat n)), (∀ η, (L.setEta η).call svd U = .ok (V η)) ∧
      L.fullPaulis.map Prod.snd = ps.map CustomVal.matrix ∧
      HasDerivAt (fun η => cost (totalObs gs) (V η)) (-(1 / 2 ^ n) * (ps.map (fun P => grad (totalObs gs) U P ^ 2)).sum) 0 ∧
      ((∃ P ∈ ps, grad (totalObs gs) U P ≠ 0) → ∃ δ > 0, ∀ η, 0 < η → η < δ → cost (totalObs gs) (V η) < cost (totalObs gs) U) := by
  have hd := deriv_sweep gs hH [(customKept n D).map Prod.snd] (by
    intro g hg
    rw [List.mem_singleton] at hg
    subst hg
    exact customKept_herm) L.trotterize U
  simp only [List.flatMap_cons, List.flatMap_nil, List.append_nil, List.flatten_cons, List.flatten_nil] at hd
  refine ⟨_, (customKept n D).map Prod.snd, fun η => customLayer_call hH hL hs η U hne, ?_, hd, ?_⟩
  · have hm := (customLayer_some hL).2.1
    generalize (customKept n D).map Prod.snd = ms at hm
    revert ms
    generalize L.fullPaulis = es
    intro ms hm
    induction es generalizing ms with
    | nil => rw [← Except.ok.inj hm]; rfl
    | cons e es ih =>
      obtain ⟨k, v⟩ := e
      cases v with
      | key k' => simp [customMatrices] at hm
      | matrix m =>
        rw [customMatrices] at hm
        cases hr : customMatrices es with
        | error x => rw [hr] at hm; simp [bind, Except.bind] at hm
        | ok ms' =>
          rw [hr] at hm
          rw [← Except.ok.inj hm, List.map_cons, List.map_cons, ih ms' hr]
  · intro hg
    obtain ⟨δ, hδ, h⟩ := descends hd (slope_neg hg)
    refine ⟨δ, hδ, fun η h1 h2 => ?_⟩
    have h3 := h η h1 h2
    have hz := C29_custom gs hH D args L hL hne svd hs 0 U (Or.inl rfl)
    rw [customLayer_call hH hL hs 0 U hne] at hz
    rw [Except.ok.inj hz] at h3
    exact h3

/-- C56 in the form of a single observable and a single operator: derivative `-|ω|²/2^n`. -/
theorem C56_single {n : ℕ} (g : Gate n) (hH : g.Aᴴ = g.A) (locality : ℤ) (args : LayerArgs) (stride : Option ℤ)
    (D : Option (List String)) (L : LocalLayer n) (hL : localLayer n [g.obs] locality args stride D = .ok L)
    (P : QMat n) (hP : L.fullPaulis = [[P]]) (hne : D ≠ some []) (svd : SvdFn n) (hs : ValidSvd svd) (U : QMat n) :
    ∃ V : ℝ → QMat n, (∀ η, (L.setEta η).call svd U = .ok (V η)) ∧
      HasDerivAt (fun η => cost (full n g.ws g.A) (V η)) (-(‖omegaC (stateFromUnitary U) P (full n g.ws g.A)‖ ^ 2 / 2 ^ n)) 0 := by
  obtain ⟨V, h1, h2, -⟩ := C56_local [g] (by simpa using hH) locality args stride D L hL (Or.inl hne) svd hs U
  have hPh := (localLayer_call (gs := [g]) (by simpa using hH) hL hs 0 U (Or.inl hne)).1 [P] (by rw [hP]; simp) P (by simp)
  refine ⟨V, h1, ?_⟩
  have hT : totalObs [g] = full n g.ws g.A := by simp [totalObs]
  rw [hP, hT] at h2
  have ho : (full n g.ws g.A)ᴴ = full n g.ws g.A := by rw [← hT]; exact totalObs_herm [g] (by simpa using hH)
  convert h2 using 1
  rw [omegaC_eq _ hPh ho, norm_mul, Complex.norm_I, one_mul, Complex.norm_real]
  simp only [List.flatten_cons, List.flatten_nil, List.append_nil, List.map_cons, List.map_nil, List.sum_cons, List.sum_nil, Real.norm_eq_abs, sq_abs]
  rw [show (omegaC (stateFromUnitary U) P (full n g.ws g.A)).im = grad (full n g.ws g.A) U P from rfl]
  ring

/-- A case in which the gradient is not zero: one qubit in the state `(1, i)/√2`-like column `(1, i)`, observable Y, direction X. -/
example : grad (n := 1) (pauliWord (fun _ => .Z)) (!![1, 0; Complex.I, 0] : Matrix (Fin 2) (Fin 2) ℂ) (pauliWord (fun _ => .X)) ≠ 0 := by
  rw [word1, word1]
  show (star (fun i : Fin 2 => (!![1, 0; Complex.I, 0] : Matrix (Fin 2) (Fin 2) ℂ) i 0) ⬝ᵥ
    (((Letter.mat .X : Matrix (Fin 2) (Fin 2) ℂ) * (Letter.mat .Z : Matrix (Fin 2) (Fin 2) ℂ) - (Letter.mat .Z : Matrix (Fin 2) (Fin 2) ℂ) * (Letter.mat .X : Matrix (Fin 2) (Fin 2) ℂ)) *ᵥ
      (fun i : Fin 2 => (!![1, 0; Complex.I, 0] : Matrix (Fin 2) (Fin 2) ℂ) i 0))).im ≠ 0
  simp [Letter.mat, dotProduct, Matrix.mulVec, Matrix.mul_apply, Fin.sum_univ_two]
  norm_num

end Oranssi
