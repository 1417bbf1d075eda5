import Verif.Lemmas.StepBound
import Verif.Props.Symmetry

/-! # C101, C102: how much one step of a layer lowers the cost, and what follows for a run -/

namespace Oranssi
open Spec
open scoped Matrix

section
open scoped Matrix.Norms.L2Operator

variable {n m : ℕ}

theorem pauliWord_norm (w : Fin n → Letter) : ‖pauliWord w‖ = 1 := by
  apply CStarRing.norm_of_mem_unitary
  rw [Unitary.mem_iff, Matrix.star_eq_conjTranspose, pauliWord_herm, pauliWord_sq]
  exact ⟨rfl, rfl⟩

theorem groupGens_norm (trot : Bool) (phi : Ket n) (o : QMat n) (ps : List (QMat n)) (hp : ∀ p ∈ ps, ‖p‖ ≤ 1) :
    ((groupGens trot phi o ps).map norm).sum ≤ 1 / 2 ^ n * (ps.map (fun p => ‖omegaC phi p o‖)).sum := by
  have hc : ‖(-(1 / 2 ^ n : ℝ) : ℂ)‖ = 1 / 2 ^ n := by
    rw [norm_neg, Complex.norm_real, Real.norm_of_nonneg (by positivity)]
  have hpos : (0 : ℝ) ≤ 1 / 2 ^ n := by positivity
  have h1 : ∀ p ∈ ps, ‖omegaC phi p o • p‖ ≤ ‖omegaC phi p o‖ := fun p h => by
    rw [norm_smul]; exact mul_le_of_le_one_right (norm_nonneg _) (hp p h)
  cases trot
  · rw [groupGens, if_neg (by simp)]
    simp only [List.map_cons, List.map_nil, List.sum_cons, List.sum_nil, add_zero]
    rw [norm_smul, hc]
    refine mul_le_mul_of_nonneg_left ?_ hpos
    clear hp
    induction ps with
    | nil => simp
    | cons p ps ih =>
      simp only [List.map_cons, List.sum_cons]
      exact (norm_add_le _ _).trans (add_le_add (h1 p List.mem_cons_self) (ih (fun q hq => h1 q (List.mem_cons_of_mem _ hq))))
  · rw [groupGens, if_pos rfl, List.map_map]
    clear hp
    induction ps with
    | nil => simp
    | cons p ps ih =>
      simp only [List.map_cons, List.sum_cons, mul_add, Function.comp]
      refine add_le_add ?_ (ih (fun q hq => h1 q (List.mem_cons_of_mem _ hq)))
      rw [norm_smul, hc]
      exact mul_le_mul_of_nonneg_left (h1 p List.mem_cons_self) hpos

theorem sum_flatMap_norm {α : Type*} (l : List α) (f : α → List (QMat n)) :
    ((l.flatMap f).map norm).sum = (l.map (fun a => ((f a).map norm).sum)).sum := by
  induction l with
  | nil => simp
  | cons a l ih => simp [ih]

theorem sum_le_sum_map {α : Type*} {f g : α → ℝ} : ∀ {l : List α}, (∀ a ∈ l, f a ≤ g a) → (l.map f).sum ≤ (l.map g).sum := by
  intro l h
  exact List.sum_le_sum h

theorem mul_sum_map {α : Type*} (c : ℝ) (f : α → ℝ) (l : List α) : (l.map (fun a => c * f a)).sum = c * (l.map f).sum := by
  induction l with
  | nil => simp
  | cons a l ih => simp [ih, mul_add]

theorem sum_flatten_map {α : Type*} (f : α → ℝ) (gl : List (List α)) : (gl.map (fun g => (g.map f).sum)).sum = (gl.flatten.map f).sum := by
  induction gl with
  | nil => simp
  | cons a l ih => simp [ih]

/-- The generators of a whole sweep. -/
noncomputable def sweepGens (os : List (QMat n)) (groups : List (List (QMat n))) (trot : Bool) (φ : Ket n) : List (QMat n) :=
  os.flatMap (fun o => groups.flatMap (groupGens trot φ o))

theorem sweepGens_factors (os : List (QMat n)) (groups : List (List (QMat n))) (trot : Bool) (φ : Ket n) (η : ℝ) :
    os.flatMap (fun o => groups.flatMap (groupFactors η trot φ o)) = (sweepGens os groups trot φ).map (fun A => NormedSpace.exp ((η : ℂ) • A)) := by
  rw [sweepGens, List.map_flatMap]
  congr 1; funext o
  rw [List.map_flatMap]
  congr 1; funext g
  exact groupFactors_gens η trot φ o g

theorem sweepGens_sum (os : List (QMat n)) (groups : List (List (QMat n))) (trot : Bool) (φ : Ket n) :
    (sweepGens os groups trot φ).sum = (-(1 / 2 ^ n : ℝ) : ℂ) • (groups.flatten.map (fun p => omegaC φ p os.sum • p)).sum := by
  rw [sweepGens, flatMap_sum]
  have : ∀ o : QMat n, (groups.flatMap (groupGens trot φ o)).sum = (-(1 / 2 ^ n : ℝ) : ℂ) • (groups.flatten.map (fun p => omegaC φ p o • p)).sum := by
    intro o
    rw [flatMap_sum]
    simp only [groupGens_sum]
    rw [← map_flatten_sum, ← sum_map_smul, List.map_map]
    rfl
  simp only [this]
  rw [← omegaC_obs_sum, ← sum_map_smul]
  simp only [List.map_map]
  rfl

theorem sweepGens_skew {os : List (QMat n)} (ho : ∀ o ∈ os, oᴴ = o) {groups : List (List (QMat n))} (hp : ∀ g ∈ groups, ∀ p ∈ g, pᴴ = p)
    (trot : Bool) (φ : Ket n) : ∀ A ∈ sweepGens os groups trot φ, Aᴴ = -A := by
  intro A hA
  obtain ⟨o, ho', hA⟩ := List.mem_flatMap.1 hA
  obtain ⟨g, hg, hA⟩ := List.mem_flatMap.1 hA
  cases trot
  · rw [groupGens, if_neg (by simp), List.mem_singleton] at hA
    subst hA
    apply real_smul_skew
    apply sum_skew
    intro A hA
    obtain ⟨p, hp', rfl⟩ := List.mem_map.1 hA
    exact omegaC_smul_skew φ (hp g hg p hp') (ho o ho')
  · rw [groupGens, if_pos rfl] at hA
    obtain ⟨p, hp', rfl⟩ := List.mem_map.1 hA
    exact real_smul_skew _ (omegaC_smul_skew φ (hp g hg p hp') (ho o ho'))

theorem sweepGens_norm (os : List (QMat n)) (groups : List (List (QMat n))) (hn : ∀ g ∈ groups, ∀ p ∈ g, ‖p‖ ≤ 1) (trot : Bool) (φ : Ket n) :
    ((sweepGens os groups trot φ).map norm).sum ≤ 1 / 2 ^ n * (os.map (fun o => (groups.flatten.map (fun p => ‖omegaC φ p o‖)).sum)).sum := by
  rw [sweepGens, sum_flatMap_norm, ← mul_sum_map]
  refine sum_le_sum_map fun o _ => ?_
  rw [sum_flatMap_norm, ← sum_flatten_map, ← mul_sum_map]
  exact sum_le_sum_map fun g hg => groupGens_norm trot φ o g (hn g hg)

/-- The change of the cost by a whole sweep: minus the step size times the sum of the squared gradients, up to a quadratic remainder. -/
theorem sweep_bound (gs : List (Gate n)) (hH : ∀ g ∈ gs, g.Aᴴ = g.A) (groups : List (List (QMat n)))
    (hp : ∀ g ∈ groups, ∀ p ∈ g, pᴴ = p) (hn : ∀ g ∈ groups, ∀ p ∈ g, ‖p‖ ≤ 1) (trot : Bool) (U : QMat n) (hU : Unitary U) {η : ℝ} (hη : 0 ≤ η) :
    |cost (totalObs gs) (((gs.map (fun g => full n g.ws g.A)).flatMap (fun o => groups.flatMap
      (groupFactors η trot (stateFromUnitary U) o))).foldl (fun U F => F * U) U) - cost (totalObs gs) U +
      η / 2 ^ n * (groups.flatten.map (fun p => grad (totalObs gs) U p ^ 2)).sum| ≤
    2 * ‖totalObs gs‖ * (η / 2 ^ n * (gs.map (fun g => (groups.flatten.map (fun p => |grad (full n g.ws g.A) U p|)).sum)).sum) ^ 2 := by
  set φ := stateFromUnitary U
  set os := gs.map (fun g => full n g.ws g.A) with hos
  have hT := totalObs_herm gs hH
  have ho : ∀ o ∈ os, oᴴ = o := gates_herm hH
  have hps : ∀ p ∈ groups.flatten, pᴴ = p := by
    intro p hp'
    obtain ⟨g, hg, hpg⟩ := List.mem_flatten.1 hp'
    exact hp g hg p hpg
  have hb := cost_fold_le (totalObs gs) U hT hU (sweepGens os groups trot φ) (sweepGens_skew ho hp trot φ) hη
  rw [← sweepGens_factors, sweepGens_sum] at hb
  have hq := quad_sum φ (totalObs gs) hT groups.flatten hps
  rw [show os.sum = totalObs gs from rfl] at hb
  have hq' : (star (fun i => U i 0) ⬝ᵥ ((totalObs gs * ((-(1 / 2 ^ n : ℝ) : ℂ) • (groups.flatten.map (fun p => omegaC φ p (totalObs gs) • p)).sum) -
      ((-(1 / 2 ^ n : ℝ) : ℂ) • (groups.flatten.map (fun p => omegaC φ p (totalObs gs) • p)).sum) * totalObs gs) *ᵥ (fun i => U i 0))).re =
      -(1 / 2 ^ n) * (groups.flatten.map (fun p => grad (totalObs gs) U p ^ 2)).sum := hq
  rw [hq'] at hb
  have hnorm := sweepGens_norm os groups hn trot φ
  have hom : (os.map (fun o => (groups.flatten.map (fun p => ‖omegaC φ p o‖)).sum)).sum =
      (gs.map (fun g => (groups.flatten.map (fun p => |grad (full n g.ws g.A) U p|)).sum)).sum := by
    rw [hos, List.map_map]
    congr 1
    refine List.map_congr_left fun g hg => ?_
    refine congrArg List.sum (List.map_congr_left fun p hp' => ?_)
    rw [omegaC_eq φ (hps p hp') (ho _ (List.mem_map.2 ⟨g, hg, rfl⟩)), norm_mul, Complex.norm_I, one_mul, Complex.norm_real]
    rfl
  rw [hom] at hnorm
  refine le_trans (le_of_eq ?_) (hb.trans ?_)
  · congr 1; ring
  · have h0 : 0 ≤ ((sweepGens os groups trot φ).map norm).sum := List.sum_nonneg (by
      intro x hx
      obtain ⟨A, -, rfl⟩ := List.mem_map.1 hx
      exact norm_nonneg _)
    have h1 : η * ((sweepGens os groups trot φ).map norm).sum ≤
        η / 2 ^ n * (gs.map (fun g => (groups.flatten.map (fun p => |grad (full n g.ws g.A) U p|)).sum)).sum := by
      calc _ ≤ η * (1 / 2 ^ n * (gs.map (fun g => (groups.flatten.map (fun p => |grad (full n g.ws g.A) U p|)).sum)).sum) :=
            mul_le_mul_of_nonneg_left hnorm hη
        _ = _ := by ring
    exact mul_le_mul_of_nonneg_left (pow_le_pow_left₀ (mul_nonneg hη h0) h1 2) (by positivity)

theorem sq_sum_le {α : Type*} (f : α → ℝ) : ∀ l : List α, (l.map (fun a => |f a|)).sum ^ 2 ≤ l.length * (l.map (fun a => f a ^ 2)).sum := by
  intro l
  induction l with
  | nil => simp
  | cons a l ih =>
    simp only [List.map_cons, List.sum_cons, List.length_cons]
    push_cast
    set s := (l.map (fun a => |f a|)).sum
    set q := (l.map (fun a => f a ^ 2)).sum
    have hx : |f a| ^ 2 = f a ^ 2 := sq_abs _
    rcases Nat.eq_zero_or_pos l.length with h | h
    · have hl : l = [] := List.length_eq_zero_iff.1 h
      subst hl
      simp [s, q, sq_abs]
    · have hm : (0 : ℝ) < l.length := by exact_mod_cast h
      have h1 : 2 * (l.length * |f a|) * s ≤ (l.length * |f a|) ^ 2 + s ^ 2 := two_mul_le_add_sq _ _
      have h2 : 2 * |f a| * s ≤ l.length * f a ^ 2 + q := by
        have : l.length * (2 * |f a| * s) ≤ l.length * (l.length * f a ^ 2 + q) := by
          rw [mul_pow, hx] at h1
          nlinarith
        exact le_of_mul_le_mul_left this hm
      nlinarith

/-- The bound for a single observable. -/
theorem sweep_single (g : Gate n) (hH : g.Aᴴ = g.A) (groups : List (List (QMat n)))
    (hp : ∀ g ∈ groups, ∀ p ∈ g, pᴴ = p) (hn : ∀ g ∈ groups, ∀ p ∈ g, ‖p‖ ≤ 1) (trot : Bool) (U : QMat n) (hU : Unitary U) {η : ℝ} (hη : 0 ≤ η) :
    cost (full n g.ws g.A) ((([g].map (fun g => full n g.ws g.A)).flatMap (fun o => groups.flatMap
      (groupFactors η trot (stateFromUnitary U) o))).foldl (fun U F => F * U) U) ≤ cost (full n g.ws g.A) U -
      η / 2 ^ n * (1 - 2 * (η / 2 ^ n) * groups.flatten.length * ‖full n g.ws g.A‖) * (groups.flatten.map (fun p => grad (full n g.ws g.A) U p ^ 2)).sum := by
  have h := sweep_bound [g] (by simpa using hH) groups hp hn trot U hU hη
  have hT : totalObs [g] = full n g.ws g.A := by simp [totalObs]
  rw [hT] at h
  have h1 := (abs_le.1 h).2
  have h2 := sq_sum_le (fun p => grad (full n g.ws g.A) U p) groups.flatten
  have e : ([g].map (fun g => (groups.flatten.map (fun p => |grad (full n g.ws g.A) U p|)).sum)).sum =
    (groups.flatten.map (fun p => |grad (full n g.ws g.A) U p|)).sum := by simp
  rw [e, mul_pow] at h1
  have h3 : 2 * ‖full n g.ws g.A‖ * ((η / 2 ^ n) ^ 2 * (groups.flatten.map (fun p => |grad (full n g.ws g.A) U p|)).sum ^ 2) ≤
      2 * ‖full n g.ws g.A‖ * ((η / 2 ^ n) ^ 2 * (groups.flatten.length * (groups.flatten.map (fun p => grad (full n g.ws g.A) U p ^ 2)).sum)) := by
    gcongr
  linarith

theorem local_paulis {gs : List (Gate n)} {locality : ℤ} {args : LayerArgs} {stride : Option ℤ}
    {D : Option (List String)} {L : LocalLayer n} (hL : localLayer n (gs.map Gate.obs) locality args stride D = .ok L) :
    (∀ g ∈ L.fullPaulis, ∀ p ∈ g, ∃ w, p = pauliWord w) ∧ L.observables = gs.map (fun g => full n g.ws g.A) := by
  obtain ⟨k, e0, b, t, hk, rfl, he, hb, ht, hL'⟩ := localLayer_ok gs (localLayer_inv gs hL)
  rw [hL'] at hL
  have hLe := Except.ok.inj hL
  subst hLe
  refine ⟨?_, rfl⟩
  intro g hg p hp
  obtain ⟨q, -, rfl⟩ := List.mem_map.1 hg
  obtain ⟨v, -, rfl⟩ := List.mem_map.1 hp
  exact ⟨_, rfl⟩

theorem customKept_word {D : List String} : ∀ p ∈ (customKept n D).map Prod.snd, ∃ w, p = pauliWord w := by
  intro p hp
  obtain ⟨e, he, rfl⟩ := List.mem_map.1 hp
  obtain ⟨w, -, q, -, rfl⟩ := mem_stdDict.1 (List.mem_filter.1 he).1
  exact ⟨_, rfl⟩

theorem customMatrices_ops : ∀ (es : List (Key × CustomVal n)) (ms : List (QMat n)), customMatrices es = .ok ms → es.map Prod.snd = ms.map CustomVal.matrix := by
  intro es
  induction es with
  | nil => intro ms hm; rw [← Except.ok.inj hm]; rfl
  | cons e es ih =>
    intro ms hm
    obtain ⟨k, v⟩ := e
    cases v with
    | key k' => simp [customMatrices] at hm
    | matrix m =>
      rw [customMatrices] at hm
      cases hr : customMatrices es with
      | error x => rw [hr] at hm; simp [bind, Except.bind] at hm
      | ok ms' =>
        rw [hr] at hm
        rw [← Except.ok.inj hm, List.map_cons, List.map_cons, ih ms' hr]

theorem customLayer_ops {gs : List (Gate n)} {D : List String} {args : LayerArgs} {L : CustomLayer n}
    (h : customLayer n (gs.map Gate.obs) (some D) args = .ok L) : L.fullPaulis.map Prod.snd = ((customKept n D).map Prod.snd).map CustomVal.matrix :=
  customMatrices_ops _ _ (customLayer_some h).2.1

theorem word_norm {p : QMat n} (h : ∃ w, p = pauliWord w) : ‖p‖ ≤ 1 := by
  obtain ⟨w, rfl⟩ := h
  exact (pauliWord_norm w).le

theorem word_herm {p : QMat n} (h : ∃ w, p = pauliWord w) : pᴴ = p := by
  obtain ⟨w, rfl⟩ := h
  exact pauliWord_herm w

/-- **C101** (Local): one step of size `η ≥ 0` from a unitary circuit changes the cost by `-(η/2^n) Σ_P grad_P²`, up to
`2 ‖H‖ ((η/2^n) Σ_o Σ_P |grad_{P,o}|)²`, where `P` runs over the operators of the layer and `o` over its observables. -/
theorem C101_local (gs : List (Gate n)) (hH : ∀ g ∈ gs, g.Aᴴ = g.A) (locality : ℤ) (args : LayerArgs) (stride : Option ℤ)
    (D : Option (List String)) (L : LocalLayer n) (hL : localLayer n (gs.map Gate.obs) locality args stride D = .ok L)
    (hne : D ≠ some [] ∨ L.trotterize = true) (svd : SvdFn n) (hs : ValidSvd svd) (U : QMat n) (hU : Unitary U) (η : ℝ) (hη : 0 ≤ η) :
    ∃ V, (L.setEta η).call svd U = .ok V ∧
      |cost (totalObs gs) V - cost (totalObs gs) U + η / 2 ^ n * (L.fullPaulis.flatten.map (fun P => grad (totalObs gs) U P ^ 2)).sum| ≤
        2 * ‖totalObs gs‖ * (η / 2 ^ n * (gs.map (fun g => (L.fullPaulis.flatten.map (fun P => |grad (full n g.ws g.A) U P|)).sum)).sum) ^ 2 := by
  obtain ⟨h1, h2⟩ := local_paulis hL
  obtain ⟨h3, -, h4⟩ := localLayer_call hH hL hs η U hne
  refine ⟨_, h4, ?_⟩
  rw [h2]
  exact sweep_bound gs hH L.fullPaulis h3 (fun g hg p hp => word_norm (h1 g hg p hp)) L.trotterize U hU hη

/-- **C101** (Custom): the same for explicit directions. -/
theorem C101_custom (gs : List (Gate n)) (hH : ∀ g ∈ gs, g.Aᴴ = g.A) (D : List String) (args : LayerArgs)
    (L : CustomLayer n) (hL : customLayer n (gs.map Gate.obs) (some D) args = .ok L) (hne : (∃ d ∈ D, d.toList.length ≤ n) ∨ L.trotterize = true)
    (svd : SvdFn n) (hs : ValidSvd svd) (U : QMat n) (hU : Unitary U) (η : ℝ) (hη : 0 ≤ η) :
    ∃ (V : QMat n) (ps : List (QMat n)), (L.setEta η).call svd U = .ok V ∧ L.fullPaulis.map Prod.snd = ps.map CustomVal.matrix ∧
      |cost (totalObs gs) V - cost (totalObs gs) U + η / 2 ^ n * (ps.map (fun P => grad (totalObs gs) U P ^ 2)).sum| ≤
        2 * ‖totalObs gs‖ * (η / 2 ^ n * (gs.map (fun g => (ps.map (fun P => |grad (full n g.ws g.A) U P|)).sum)).sum) ^ 2 := by
  have h := sweep_bound gs hH [(customKept n D).map Prod.snd] (by
    intro g hg
    rw [List.mem_singleton] at hg
    subst hg
    exact customKept_herm) (by
    intro g hg
    rw [List.mem_singleton] at hg
    subst hg
    exact fun p hp => word_norm (customKept_word p hp)) L.trotterize U hU hη
  simp only [List.flatMap_cons, List.flatMap_nil, List.append_nil, List.flatten_cons, List.flatten_nil] at h
  exact ⟨_, _, customLayer_call hH hL hs η U hne, customLayer_ops hL, h⟩

/-- A local or custom layer that was constructed for the single observable `g`, with its step size and its operators. -/
inductive SingleLayer (g : Gate n) : AnyLayer n → ℝ → List (QMat n) → Prop
  | loc (locality : ℤ) (la : LayerArgs) (stride : Option ℤ) (D : Option (List String)) (L : LocalLayer n)
      (hL : localLayer n [g.obs] locality la stride D = .ok L) (hne : D ≠ some [] ∨ L.trotterize = true) : SingleLayer g (.loc L) L.eta L.fullPaulis.flatten
  | custom (D : List String) (la : LayerArgs) (L : CustomLayer n) (hL : customLayer n [g.obs] (some D) la = .ok L)
      (hne : (∃ d ∈ D, d.toList.length ≤ n) ∨ L.trotterize = true) (ps : List (QMat n)) (hps : L.fullPaulis.map Prod.snd = ps.map CustomVal.matrix) :
      SingleLayer g (.custom L) L.eta ps

theorem SingleLayer.eta_nonneg {g : Gate n} {L : AnyLayer n} {η : ℝ} {ps : List (QMat n)} (h : SingleLayer g L η ps) : 0 ≤ η := by
  cases h with
  | loc locality la stride D L hL hne =>
    simp only [localLayer, bind_ok_iff, Except.ok.injEq] at hL
    obtain ⟨a, ha, e, he, x0, h0, x1, h1, x2, h2, x3, h3, x4, h4, x5, h5, x6, h6, rfl⟩ := hL
    exact ((validateEta_iff _ _).mp he).2.1
  | custom D la L hL hne ps hps =>
    simp only [customLayer, bind_ok_iff, Except.ok.injEq] at hL
    obtain ⟨a, ha, e, he, x0, h0, x1, h1, x2, h2, x3, h3, x4, h4, rfl⟩ := hL
    exact ((validateEta_iff _ _).mp he).2.1

theorem matrix_inj : Function.Injective (CustomVal.matrix : QMat n → CustomVal n) := fun _ _ h => CustomVal.matrix.inj h

/-- **C101** for a single observable: a call of the layer lowers the cost by at least `(η/2^n) (1 - 2 (η/2^n) K ‖H‖) Σ_P grad_P²`, where `K` is the number of
operators of the layer; the layer object is not changed. -/
theorem C101_single (E : LayerEnv n) (hs : ValidSvd E.svd) (g : Gate n) (hH : g.Aᴴ = g.A) {L : AnyLayer n} {η : ℝ} {ps : List (QMat n)}
    (hL : SingleLayer g L η ps) (params : List (List ℝ)) (U : QMat n) (hU : Unitary U) :
    ∃ V, L.call E params U = .ok (V, params, L) ∧ Unitary V ∧
      cost (full n g.ws g.A) V ≤ cost (full n g.ws g.A) U -
        η / 2 ^ n * (1 - 2 * (η / 2 ^ n) * ps.length * ‖full n g.ws g.A‖) * (ps.map (fun P => grad (full n g.ws g.A) U P ^ 2)).sum := by
  have hH' : ∀ g' ∈ [g], g'.Aᴴ = g'.A := by simpa using hH
  have hη := hL.eta_nonneg
  cases hL with
  | loc locality la stride D L hL hne =>
    have hL' : localLayer n ([g].map Gate.obs) locality la stride D = .ok L := hL
    obtain ⟨h1, h2⟩ := local_paulis hL'
    obtain ⟨h3, h5, h4⟩ := localLayer_call hH' hL' hs L.eta U hne
    refine ⟨_, by rw [AnyLayer.call, show L.call E.svd U = _ from h4]; rfl, foldl_unitary (obsFactors_unitary _ _ _ h3 h5) hU, ?_⟩
    rw [h2]
    exact sweep_single g hH L.fullPaulis h3 (fun g hg p hp => word_norm (h1 g hg p hp)) L.trotterize U hU hη
  | custom D la L hL hne ps hps =>
    have hL' : customLayer n ([g].map Gate.obs) (some D) la = .ok L := hL
    have h4 := customLayer_call hH' hL' hs L.eta U hne
    have hg : ∀ g ∈ [(customKept n D).map Prod.snd], ∀ p ∈ g, pᴴ = p := by
      intro g hg
      rw [List.mem_singleton] at hg
      subst hg
      exact customKept_herm
    have hps' : ps = (customKept n D).map Prod.snd := List.map_injective_iff.2 matrix_inj (hps.symm.trans (customLayer_ops hL'))
    have h := sweep_single g hH [(customKept n D).map Prod.snd] hg (by
      intro g hg
      rw [List.mem_singleton] at hg
      subst hg
      exact fun p hp => word_norm (customKept_word p hp)) L.trotterize U hU hη
    have hun := obsFactors_unitary (n := n) L.eta L.trotterize (stateFromUnitary U) hg (gates_herm hH')
    simp only [List.flatMap_cons, List.flatMap_nil, List.append_nil, List.flatten_cons, List.flatten_nil] at h hun
    rw [hps']
    exact ⟨_, by rw [AnyLayer.call, show L.call E.svd U = _ from h4]; rfl, foldl_unitary (by simpa using hun) hU, by simpa using h⟩

/-- **C102**: `approximate_lie_optimizer` on a single observable with local and custom layers (without perturbation), whose step sizes satisfy
`4 η K ‖H‖ ≤ 2^n`: the costs never increase, and every step lowers the cost by at least `η/2^(n+1)` times the sum of the squared gradients along the
operators of the layer that is called. -/
theorem C102_steps (E : LayerEnv n) (hs : ValidSvd E.svd) (eigh : EighFn n) (rnd : ℕ → Matrix (Fin (2 ^ n)) (Fin (2 ^ n)) ℝ) (ret : CircuitRet)
    (ops : List (NpMat × List ℤ)) (params : List (List ℝ)) (g : Gate n) (hH : g.Aᴴ = g.A) (objs : Fin m → AnyLayer n) (layers : List (Fin m)) (args : ApproxArgs)
    (out : OptOut (ApproxItem n) × (Fin m → AnyLayer n)) (hp : args.perturb = .bool false) (U : QMat n) (hU : compileLoop n ops 1 = .ok U) (hu : Unitary U)
    (η : Fin m → ℝ) (ps : Fin m → List (QMat n)) (hobjs : ∀ i, SingleLayer g (objs i) (η i) (ps i))
    (hsmall : ∀ i, 4 * η i * (ps i).length * ‖full n g.ws g.A‖ ≤ 2 ^ n)
    (h : approximateLieOptimizer E eigh rnd ret ops params [g.obs] objs layers args = .ok out) :
    ∃ (j : ℕ) (V : ℕ → QMat n), V 0 = U ∧ (∀ k ≤ j, Unitary (V k)) ∧
      approxCosts out.1 = (List.range (j + 1)).map (fun k => cost (full n g.ws g.A) (V k)) ∧
      (args.returnUnitary = .bool true → approxUnitaries out.1 = some ((List.range (j + 1)).map V)) ∧
      ∀ k < j, ∃ i, layers[k % layers.length]? = some i ∧ (objs i).call E params (V k) = .ok (V (k + 1), params, objs i) ∧
        η i / 2 ^ (n + 1) * ((ps i).map (fun P => grad (full n g.ws g.A) (V k) P ^ 2)).sum ≤ cost (full n g.ws g.A) (V k) - cost (full n g.ws g.A) (V (k + 1)) := by
  have h0 : ∀ i, 0 ≤ η i := fun i => (hobjs i).eta_nonneg
  obtain ⟨-, N, e, t, F, hv, V, W, j, r, h0', hp0, ho0, hrun, rfl, hcost, hst, hun, -⟩ := approx_outcome E eigh rnd ret ops params [g] objs layers args out h
  obtain ⟨r1, r2, -, r4, -⟩ := approxOutput_read r F
  have hF : F.perturb = false := by
    have := hv.flagP
    rw [hp] at this
    exact (BoolArg.bool.inj this).symm
  rw [hF] at hrun
  have hT : totalObs [g] = full n g.ws g.A := by simp [totalObs]
  have hV0 : (V 0).U = U := Except.ok.inj (h0'.symm.trans hU)
  have hstep : ∀ k < j, (Unitary (V k).U ∧ (V k).objs = objs ∧ (V k).params = params ∧ W k = V k) →
      (Unitary (V (k + 1)).U ∧ (V (k + 1)).objs = objs ∧ (V (k + 1)).params = params ∧ W (k + 1) = V (k + 1)) ∧
      ∃ i, layers[k % layers.length]? = some i ∧ (objs i).call E params (V k).U = .ok ((V (k + 1)).U, params, objs i) ∧ η i / 2 ^ (n + 1) * ((ps i).map (fun P => grad (full n g.ws g.A) (V k).U P ^ 2)).sum ≤
        cost (full n g.ws g.A) (V k).U - cost (full n g.ws g.A) (V (k + 1)).U := by
    rintro k hk ⟨i2, i3, i5, i4⟩
    obtain ⟨i, L', hi, hcall, hobj⟩ := hrun.advance k hk
    rw [i4, i3] at hcall hobj
    rw [i5] at hcall
    obtain ⟨X, hX, hX1, hX2⟩ := C101_single E hs g hH (hobjs i) params (V k).U i2
    rw [hX] at hcall
    obtain ⟨h3, h4⟩ := Prod.mk.inj (Except.ok.inj hcall)
    obtain ⟨h4, h5⟩ := Prod.mk.inj h4
    refine ⟨⟨by rw [← h3]; exact hX1, ?_, h4.symm, hrun.kept k hk (.inr rfl)⟩, i, hi, by rw [hX, h3], ?_⟩
    · rw [hobj, ← h5]; exact Function.update_eq_self i objs
    · rw [← h3]
      set S := ((ps i).map (fun P => grad (full n g.ws g.A) (V k).U P ^ 2)).sum with hS
      have hS0 : 0 ≤ S := List.sum_nonneg (by
        intro x hx
        obtain ⟨A, -, rfl⟩ := List.mem_map.1 hx
        positivity)
      have h2n : (0 : ℝ) < 2 ^ n := by positivity
      have hb : 2 * (η i / 2 ^ n) * (ps i).length * ‖full n g.ws g.A‖ ≤ 1 / 2 := by
        rw [show 2 * (η i / 2 ^ n) * (ps i).length * ‖full n g.ws g.A‖ = (4 * η i * (ps i).length * ‖full n g.ws g.A‖) / 2 ^ n / 2 by ring]
        have := (div_le_one h2n).2 (hsmall i)
        linarith
      have hq : 0 ≤ η i / 2 ^ n * S := mul_nonneg (div_nonneg (h0 i) h2n.le) hS0
      have e2 : η i / 2 ^ (n + 1) * S = (η i / 2 ^ n * S) / 2 := by rw [pow_succ]; ring
      rw [e2]
      nlinarith
  have hinv : ∀ k ≤ j, Unitary (V k).U ∧ (V k).objs = objs ∧ (V k).params = params ∧ W k = V k := by
    intro k
    induction k with
    | zero => intro _; exact ⟨by rw [hV0]; exact hu, ho0, hp0, hrun.start⟩
    | succ k ih => intro hk; exact (hstep k (by omega) (ih (by omega))).1
  refine ⟨j, fun k => (V k).U, hV0, fun k hk => (hinv k hk).1, by rw [r1, hcost, hT], ?_, fun k hk => (hstep k hk (hinv k hk.le)).2⟩
  intro hr
  rw [hv.flagU] at hr
  have hr := BoolArg.bool.inj hr
  rw [r4, hr, if_pos rfl, hun, if_pos hr]

theorem cost_abs_le (H U : QMat n) (hU : Unitary U) : |cost H U| ≤ ‖H‖ := by
  have h := quad_le H (fun i => U i 0)
  have e : star (fun i => U i 0) ⬝ᵥ (fun i => U i 0) = 1 := normalised_of_unitary hU
  rw [e, Complex.one_re, mul_one] at h
  exact h

/-- **C102**, consequences: the costs are non-increasing from any step to any later one; and if all step sizes are at least `η0 > 0`, then in a run of
`j` steps there is a step at which the sum of the squared gradients along the operators of the layer is at most `2^(n+2) ‖H‖ / (η0 j)`. -/
theorem C102_run (E : LayerEnv n) (hs : ValidSvd E.svd) (eigh : EighFn n) (rnd : ℕ → Matrix (Fin (2 ^ n)) (Fin (2 ^ n)) ℝ) (ret : CircuitRet)
    (ops : List (NpMat × List ℤ)) (params : List (List ℝ)) (g : Gate n) (hH : g.Aᴴ = g.A) (objs : Fin m → AnyLayer n) (layers : List (Fin m)) (args : ApproxArgs)
    (out : OptOut (ApproxItem n) × (Fin m → AnyLayer n)) (hp : args.perturb = .bool false) (U : QMat n) (hU : compileLoop n ops 1 = .ok U) (hu : Unitary U)
    (η : Fin m → ℝ) (ps : Fin m → List (QMat n)) (hobjs : ∀ i, SingleLayer g (objs i) (η i) (ps i))
    (hsmall : ∀ i, 4 * η i * (ps i).length * ‖full n g.ws g.A‖ ≤ 2 ^ n)
    (h : approximateLieOptimizer E eigh rnd ret ops params [g.obs] objs layers args = .ok out) :
    (approxCosts out.1).Pairwise (fun a b => b ≤ a) ∧
    ∀ η0 > 0, (∀ i, η0 ≤ η i) → ∃ (j : ℕ) (V : ℕ → QMat n), V 0 = U ∧ (approxCosts out.1).length = j + 1 ∧
      (∀ k ≤ j, (approxCosts out.1)[k]? = some (cost (full n g.ws g.A) (V k))) ∧
      (∀ k < j, ∃ i, layers[k % layers.length]? = some i ∧ (objs i).call E params (V k) = .ok (V (k + 1), params, objs i)) ∧
      ∃ k < j, ∃ i, layers[k % layers.length]? = some i ∧
        ((ps i).map (fun P => grad (full n g.ws g.A) (V k) P ^ 2)).sum ≤ 2 ^ (n + 2) * ‖full n g.ws g.A‖ / (η0 * j) := by
  obtain ⟨j, V, hV0, hun, hc, -, hstep⟩ := C102_steps E hs eigh rnd ret ops params g hH objs layers args out hp U hU hu η ps hobjs hsmall h
  have h0 : ∀ i, 0 ≤ η i := fun i => (hobjs i).eta_nonneg
  set H := full n g.ws g.A with hHdef
  have hS0 : ∀ i k, 0 ≤ ((ps i).map (fun P => grad H (V k) P ^ 2)).sum := fun i k => List.sum_nonneg (by
    intro x hx
    obtain ⟨A, -, rfl⟩ := List.mem_map.1 hx
    positivity)
  have hdec : ∀ k < j, cost H (V (k + 1)) ≤ cost H (V k) := by
    intro k hk
    obtain ⟨i, -, -, hi⟩ := hstep k hk
    have : 0 ≤ η i / 2 ^ (n + 1) * ((ps i).map (fun P => grad H (V k) P ^ 2)).sum := mul_nonneg (div_nonneg (h0 i) (by positivity)) (hS0 i k)
    linarith
  have hmono : ∀ a b, a ≤ b → b ≤ j → cost H (V b) ≤ cost H (V a) := by
    intro a b hab
    induction b, hab using Nat.le_induction with
    | base => intro _; exact le_rfl
    | succ b hab ih => intro hb; exact (hdec b (by omega)).trans (ih (by omega))
  refine ⟨?_, ?_⟩
  · rw [hc, List.pairwise_map]
    refine List.Pairwise.imp_of_mem ?_ (List.pairwise_lt_range (n := j + 1))
    intro a b _ hb hab
    exact hmono a b hab.le (by simpa [Nat.lt_succ_iff] using hb)
  · intro η0 hη0 hle
    have hj : 1 ≤ j := by
      have := (C50_trace E eigh rnd ret ops params [g] objs layers args out h)
      obtain ⟨-, -, -, -, V', W', j', hj', -, -, -, -, -, -, -, -, -, -, hl, -⟩ := this
      rw [hc] at hl
      simp at hl
      omega
    refine ⟨j, V, hV0, by rw [hc]; simp, ?_, fun k hk => ?_, ?_⟩
    · intro k hk
      rw [hc, List.getElem?_map, List.getElem?_range (by omega)]
      rfl
    · obtain ⟨i, hi, hcall, -⟩ := hstep k hk
      exact ⟨i, hi, hcall⟩
    · by_contra hno
      push Not at hno
      have hjpos : (0 : ℝ) < j := by exact_mod_cast hj
      set B := 2 ^ (n + 2) * ‖H‖ / (η0 * j) with hB
      have hB0 : 0 ≤ B := by positivity
      have hbig : ∀ k < j, η0 / 2 ^ (n + 1) * B < cost H (V k) - cost H (V (k + 1)) := by
        intro k hk
        obtain ⟨i, hi, -, hle'⟩ := hstep k hk
        have h1 := hno k hk i hi
        have h2 : η0 / 2 ^ (n + 1) * B < η0 / 2 ^ (n + 1) * ((ps i).map (fun P => grad H (V k) P ^ 2)).sum := mul_lt_mul_of_pos_left h1 (by positivity)
        have h3 : η0 / 2 ^ (n + 1) * ((ps i).map (fun P => grad H (V k) P ^ 2)).sum ≤ η i / 2 ^ (n + 1) * ((ps i).map (fun P => grad H (V k) P ^ 2)).sum :=
          mul_le_mul_of_nonneg_right (div_le_div_of_nonneg_right (hle i) (by positivity)) (hS0 i k)
        linarith
      have htel : ∀ k, k ≤ j → k * (η0 / 2 ^ (n + 1) * B) ≤ cost H (V 0) - cost H (V k) := by
        intro k
        induction k with
        | zero => intro _; simp
        | succ k ih =>
          intro hk
          have h1 := ih (by omega)
          have h2 := hbig k (by omega)
          push_cast
          linarith
      have h1 := htel (j - 1) (by omega)
      have h2 := hbig (j - 1) (by omega)
      rw [show j - 1 + 1 = j by omega] at h2
      have h3 := abs_le.1 (cost_abs_le H (V 0) (hun 0 (by omega)))
      have h4 := abs_le.1 (cost_abs_le H (V j) (hun j le_rfl))
      have hcast : ((j - 1 : ℕ) : ℝ) = j - 1 := by rw [Nat.cast_sub hj]; simp
      have h5 : (j : ℝ) * (η0 / 2 ^ (n + 1) * B) = 2 * ‖H‖ := by
        rw [hB, pow_succ 2 (n + 1)]
        field_simp
      rw [hcast] at h1
      nlinarith

theorem full_norm_involution {g : Gate n} (h1 : g.Aᴴ = g.A) (h2 : g.A * g.A = 1) : ‖full n g.ws g.A‖ = 1 := by
  have h3 : full n g.ws g.A * full n g.ws g.A = 1 := by rw [← full_mul rfl g.valid, h2, full_one rfl g.valid]
  apply CStarRing.norm_of_mem_unitary
  rw [Unitary.mem_iff, Matrix.star_eq_conjTranspose, ← full_conjTranspose rfl g.valid.2, h1, h3]
  exact ⟨rfl, rfl⟩

/-- The step size condition holds with the default step size of a layer of locality 2 on two qubits, for the observable Z on qubit 1 (`4 · 0.1 · 9 ≤ 4`). -/
example : ∃ L, localLayer 2 [exObsZ.obs] 2 {} none none = .ok L ∧ SingleLayer exObsZ (.loc L) L.eta L.fullPaulis.flatten ∧
    4 * L.eta * L.fullPaulis.flatten.length * ‖full 2 exObsZ.ws exObsZ.A‖ ≤ 2 ^ 2 := by
  obtain ⟨k, e, b, t, hk, hk2, he, -, -, h⟩ := localLayer_ok [exObsZ] (localOk_default 2 rfl none (by rintro _ ⟨⟩) none (Or.inl rfl))
  have : k = 2 := by exact_mod_cast hk2.symm
  subst this
  refine ⟨_, h, .loc 2 {} none none _ h (.inl (by simp)), ?_⟩
  have he' : e = 0.1 := Except.ok.inj (he.symm.trans defaultEta_ok)
  have hl : ((combinations (List.range 2) 2).map (fun q => (keptWords 2 none).map (fun w => pauliWord (placed 2 w q)))).flatten.length = 9 := by
    have e1 : combinations (List.range 2) 2 = [[0, 1]] := by decide
    have e2 : (keptWords 2 none).length = 9 := by decide
    rw [e1]
    simp [e2]
  have hn : ‖full 2 exObsZ.ws exObsZ.A‖ = 1 := full_norm_involution (pauliWord_herm _) (pauliWord_sq _)
  show 4 * e * (List.length _ : ℕ) * _ ≤ _
  rw [he', hn]
  simp only [hl]
  norm_num

end

end Oranssi
