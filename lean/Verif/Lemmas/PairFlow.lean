import Verif.Props.ExactRefute
import Mathlib.Topology.Order.LiminfLimsup
import Mathlib.Topology.Order.MonotoneConvergence
import Mathlib.Topology.UniformSpace.HeineCantor
import Mathlib.Analysis.SpecialFunctions.Trigonometric.Bounds
import Mathlib.Analysis.SpecialFunctions.Trigonometric.Inverse

/-! # A map of the disc and where its iterates converge

`halfStep` moves the first coordinate, taken as the cosine of an angle, towards `-1`, shrinks or stretches the second one so that the point stays on the same
great circle of the sphere above the disc, and exchanges the two. -/

namespace Oranssi
open Filter Topology

/-- One half of a step: the first coordinate is moved, then the coordinates are exchanged. -/
noncomputable def Spec.halfStep (κ : ℝ) (s : ℝ × ℝ) : ℝ × ℝ :=
  (s.2 * (Real.sin (Real.arccos s.1 + κ * Real.sin (Real.arccos s.1)) / Real.sin (Real.arccos s.1)),
    Real.cos (Real.arccos s.1 + κ * Real.sin (Real.arccos s.1)))

/-- The half steps one after the other. -/
noncomputable def Spec.halfFlow (κ : ℝ) (s : ℝ × ℝ) : ℕ → ℝ × ℝ
  | 0 => s
  | j + 1 => Spec.halfStep κ (halfFlow κ s j)

open Spec

/-- The height above the disc. -/
noncomputable def height (s : ℝ × ℝ) : ℝ := Real.sqrt (1 - s.1 ^ 2 - s.2 ^ 2)

/-- Inside the disc. -/
def Inner (s : ℝ × ℝ) : Prop := s.1 ^ 2 + s.2 ^ 2 < 1

theorem height_pos {s : ℝ × ℝ} (h : Inner s) : 0 < height s := Real.sqrt_pos.2 (by unfold Inner at h; linarith)

theorem height_sq {s : ℝ × ℝ} (h : Inner s) : height s ^ 2 = 1 - s.1 ^ 2 - s.2 ^ 2 := Real.sq_sqrt (by unfold Inner at h; linarith)

/-- The numbers of one half step from a point inside the disc. -/
theorem halfStep_inner {κ : ℝ} (hκ0 : 0 < κ) (hκ1 : κ ≤ 1) {s : ℝ × ℝ} (h : Inner s) :
    ∃ x x' : ℝ, 0 < x ∧ x' = x + κ * Real.sin x ∧ x < x' ∧ x' < Real.pi ∧ 0 < Real.sin x ∧ 0 < Real.sin x' ∧ x = Real.arccos s.1 ∧ s.1 = Real.cos x ∧
      halfStep κ s = (s.2 * (Real.sin x' / Real.sin x), Real.cos x') ∧ Inner (halfStep κ s) ∧ height (halfStep κ s) = height s * (Real.sin x' / Real.sin x) := by
  have h1 : s.1 ^ 2 < 1 := by unfold Inner at h; nlinarith [sq_nonneg s.2]
  have h2 : -1 < s.1 ∧ s.1 < 1 := abs_lt.1 ((sq_lt_one_iff_abs_lt_one _).1 h1)
  set x := Real.arccos s.1 with hx
  have hx0 : 0 < x := Real.arccos_pos.2 h2.2
  have hx1 : x < Real.pi := by
    refine lt_of_le_of_ne (Real.arccos_le_pi _) fun hh => ?_
    rw [Real.arccos_eq_pi] at hh
    linarith
  have hs : 0 < Real.sin x := Real.sin_pos_of_pos_of_lt_pi hx0 hx1
  have hb := flowAngle_bounds κ x hκ0.le hκ1 hx0 hx1 1
  have e1 : flowAngle κ x 1 = x + κ * Real.sin x := rfl
  rw [e1] at hb
  have hs' := Real.sin_pos_of_pos_of_lt_pi hb.1 hb.2
  have hc : s.1 = Real.cos x := (Real.cos_arccos h2.1.le h2.2.le).symm
  have hst : halfStep κ s = (s.2 * (Real.sin (x + κ * Real.sin x) / Real.sin x), Real.cos (x + κ * Real.sin x)) := rfl
  have key : 1 - (halfStep κ s).1 ^ 2 - (halfStep κ s).2 ^ 2 = (1 - s.1 ^ 2 - s.2 ^ 2) * (Real.sin (x + κ * Real.sin x) / Real.sin x) ^ 2 := by
    rw [hst, hc]
    have e2 : Real.cos x ^ 2 = 1 - Real.sin x ^ 2 := by rw [Real.cos_sq']
    have e3 : Real.cos (x + κ * Real.sin x) ^ 2 = 1 - Real.sin (x + κ * Real.sin x) ^ 2 := by rw [Real.cos_sq']
    simp only
    rw [e2, e3]
    field_simp
    ring
  have hpos : 0 < Real.sin (x + κ * Real.sin x) / Real.sin x := div_pos hs' hs
  refine ⟨x, x + κ * Real.sin x, hx0, rfl, by nlinarith, hb.2, hs, hs', rfl, hc, hst, ?_, ?_⟩
  · have : 0 < 1 - (halfStep κ s).1 ^ 2 - (halfStep κ s).2 ^ 2 := by
      rw [key]
      refine mul_pos ?_ (by positivity)
      unfold Inner at h
      linarith
    unfold Inner
    linarith
  · rw [height, key, Real.sqrt_mul' _ (by positivity), Real.sqrt_sq hpos.le, height]

section
variable {κ : ℝ} {s : ℝ × ℝ}

theorem halfFlow_inner (hκ0 : 0 < κ) (hκ1 : κ ≤ 1) (h : Inner s) (j : ℕ) : Inner (halfFlow κ s j) := by
  induction j with
  | zero => exact h
  | succ j ih =>
    obtain ⟨_, _, _, _, _, _, _, _, _, _, _, h1, _⟩ := halfStep_inner hκ0 hκ1 ih
    exact h1

/-- The central projection `(z, w)` of the point: `z` becomes the old `w`, and `w` becomes smaller than the old `z`. -/
theorem halfStep_slopes (hκ0 : 0 < κ) (hκ1 : κ ≤ 1) (h : Inner s) :
    (halfStep κ s).1 / height (halfStep κ s) = s.2 / height s ∧
      (halfStep κ s).2 / height (halfStep κ s) + 2 / Real.pi * (κ * height s) ≤ s.1 / height s := by
  obtain ⟨x, x', hx0, hx', hlt, hpi, hs, hs', -, hc, hst, hin, hh⟩ := halfStep_inner hκ0 hκ1 h
  have hc0 := height_pos h
  have hc0' := hc0.ne'
  rw [hh, hst]
  constructor
  · simp only
    field_simp
  · simp only
    have e : s.1 / height s - Real.cos x' / (height s * (Real.sin x' / Real.sin x)) = Real.sin (x' - x) / (height s * Real.sin x') := by
      rw [Real.sin_sub, hc]
      field_simp
    have hle : height s ≤ Real.sin x := by
      have := height_sq h
      have h2 := Real.sin_sq_add_cos_sq x
      rw [← hc] at h2
      refine abs_le_of_sq_le_sq' ?_ hs.le |>.2
      nlinarith [sq_nonneg s.2]
    have h3 : height s ≤ 1 := hle.trans (Real.sin_le_one x)
    have h4 : 2 / Real.pi * (κ * height s) ≤ Real.sin (x' - x) := by
      have hd : x' - x = κ * Real.sin x := by rw [hx']; ring
      rw [hd]
      have h5 : 2 / Real.pi * (κ * Real.sin x) ≤ Real.sin (κ * Real.sin x) := by
        refine Real.mul_le_sin (by positivity) ?_
        have : κ * Real.sin x ≤ 1 := by nlinarith [Real.sin_le_one x]
        have := Real.two_le_pi
        linarith
      refine le_trans ?_ h5
      gcongr
    have h6 : 0 ≤ Real.sin (x' - x) := le_trans (by positivity) h4
    have h7 : Real.sin (x' - x) ≤ Real.sin (x' - x) / (height s * Real.sin x') := by
      refine le_div_self h6 (by positivity) ?_
      have := Real.sin_le_one x'
      nlinarith
    linarith

/-- The height tends to zero. -/
theorem halfFlow_height (hκ0 : 0 < κ) (hκ1 : κ ≤ 1) (h : Inner s) : Tendsto (fun j => height (halfFlow κ s j)) atTop (𝓝 0) := by
  set f : ℕ → ℝ × ℝ := halfFlow κ s with hf
  have hin : ∀ j, Inner (f j) := halfFlow_inner hκ0 hκ1 h
  have hpos : ∀ j, 0 < height (f j) := fun j => height_pos (hin j)
  set S : ℕ → ℝ := fun j => ((f j).1 + (f j).2) / height (f j) with hS
  have hdec : ∀ j, S (j + 1) + 2 / Real.pi * (κ * height (f j)) ≤ S j := by
    intro j
    obtain ⟨h1, h2⟩ := halfStep_slopes hκ0 hκ1 (hin j)
    have e : f (j + 1) = halfStep κ (f j) := rfl
    simp only [hS]
    rw [e, add_div, add_div, h1]
    linarith
  have hanti : Antitone S := antitone_nat_of_succ_le fun j => by
    have h1 := hdec j
    have h2 : 0 ≤ 2 / Real.pi * (κ * height (f j)) := by
      have := (hpos j).le
      have := Real.pi_pos.le
      positivity
    linarith
  rcases tendsto_atTop_of_antitone hanti with hbot | ⟨l, hl⟩
  · have h1 : Tendsto (fun j => 2 / (-S j)) atTop (𝓝 0) := (tendsto_neg_atBot_atTop.comp hbot).const_div_atTop 2
    refine squeeze_zero' (Eventually.of_forall fun j => (hpos j).le) ?_ h1
    filter_upwards [hbot.eventually_lt_atBot 0] with j hj
    have h2 : 0 < -S j := by linarith
    rw [le_div_iff₀ h2]
    have h3 : height (f j) * S j = (f j).1 + (f j).2 := by
      simp only [hS]
      have := (hpos j).ne'
      field_simp
    have h4 := hin j
    unfold Inner at h4
    nlinarith [sq_nonneg ((f j).1 + 1), sq_nonneg ((f j).2 + 1)]
  · have h1 : Tendsto (fun j => S (j + 1)) atTop (𝓝 l) := hl.comp (tendsto_add_atTop_nat 1)
    have h2 : Tendsto (fun j => (S j - S (j + 1)) * (Real.pi / (2 * κ))) atTop (𝓝 0) := by
      have := (hl.sub h1).mul_const (Real.pi / (2 * κ))
      simpa using this
    refine squeeze_zero (fun j => (hpos j).le) (fun j => ?_) h2
    have h3 := hdec j
    have hp := Real.pi_pos
    rw [← div_le_iff₀ (by positivity), div_div_eq_mul_div]
    calc height (f j) * (2 * κ) / Real.pi = 2 / Real.pi * (κ * height (f j)) := by ring
      _ ≤ _ := by linarith

/-- Both coordinates stay below a fixed multiple of the height. -/
theorem halfFlow_below (hκ0 : 0 < κ) (hκ1 : κ ≤ 1) (h : Inner s) :
    ∃ M, 0 ≤ M ∧ ∀ j, (halfFlow κ s j).1 ≤ M * height (halfFlow κ s j) ∧ (halfFlow κ s j).2 ≤ M * height (halfFlow κ s j) := by
  set M := max (max (s.1 / height s) (s.2 / height s)) 0 with hM
  have hin : ∀ j, Inner (halfFlow κ s j) := halfFlow_inner hκ0 hκ1 h
  have key : ∀ j, (halfFlow κ s j).1 / height (halfFlow κ s j) ≤ M ∧ (halfFlow κ s j).2 / height (halfFlow κ s j) ≤ M := by
    intro j
    induction j with
    | zero => exact ⟨(le_max_left _ _).trans (le_max_left _ _), (le_max_right _ _).trans (le_max_left _ _)⟩
    | succ j ih =>
      obtain ⟨h1, h2⟩ := halfStep_slopes hκ0 hκ1 (hin j)
      have e : halfFlow κ s (j + 1) = halfStep κ (halfFlow κ s j) := rfl
      rw [e, h1]
      refine ⟨ih.2, ?_⟩
      have h3 : 0 ≤ 2 / Real.pi * (κ * height (halfFlow κ s j)) := by
        have := (height_pos (hin j)).le
        have := Real.pi_pos.le
        positivity
      linarith [ih.1]
  refine ⟨M, le_max_right _ _, fun j => ?_⟩
  have hp := height_pos (hin j)
  exact ⟨(div_le_iff₀ hp).1 (key j).1, (div_le_iff₀ hp).1 (key j).2⟩

end

/-- A bounded sequence that follows a decreasing map ever more closely converges, if the map brings any two points of the region where the sequence ends up
strictly closer. -/
theorem tendsto_of_antitone_map {T : ℝ → ℝ} (hT : Antitone T) (hc : Continuous T) {φ : ℕ → ℝ} {a b : ℝ} (ha : ∀ j, a ≤ φ j) (hb : ∀ j, φ j ≤ b) {d : ℝ}
    (hd : ∀ ε > 0, ∀ᶠ j in atTop, φ j ≤ d + ε) (hrec : Tendsto (fun j => φ (j + 1) - T (φ j)) atTop (𝓝 0))
    (hns : ∀ l L, a ≤ l → l < L → L ≤ d → T l - T L < L - l) : ∃ l, Tendsto φ atTop (𝓝 l) ∧ T l = l ∧ a ≤ l ∧ l ≤ d := by
  have bA : IsBoundedUnder (· ≤ ·) atTop φ := isBoundedUnder_of ⟨b, hb⟩
  have bB : IsBoundedUnder (· ≥ ·) atTop φ := isBoundedUnder_of ⟨a, ha⟩
  set L := limsup φ atTop with hL
  set l := liminf φ atTop with hl
  have hlL : l ≤ L := liminf_le_limsup bA bB
  have hal : a ≤ l := le_liminf_of_le bA.isCoboundedUnder_ge (Eventually.of_forall ha)
  have hLd : L ≤ d := le_of_forall_pos_le_add fun ε hε => limsup_le_of_le bB.isCoboundedUnder_le (hd ε hε)
  have h1 : L ≤ T l := by
    have h2 : ∀ ε > 0, L ≤ T (l - ε) + ε := by
      intro ε hε
      refine limsup_le_of_le bB.isCoboundedUnder_le ?_
      have e1 := eventually_lt_of_lt_liminf (show l - ε < liminf φ atTop by linarith) bB
      have e2 : ∀ᶠ j in atTop, φ (j + 1) - T (φ j) < ε := hrec.eventually_lt_const hε
      have e3 : ∀ᶠ j in atTop, φ (j + 1) ≤ T (l - ε) + ε := by
        filter_upwards [e1, e2] with j h3 h4
        have := hT h3.le
        linarith
      obtain ⟨N, hN⟩ := eventually_atTop.1 e3
      refine eventually_atTop.2 ⟨N + 1, fun j hj => ?_⟩
      have := hN (j - 1) (by omega)
      rwa [show j - 1 + 1 = j by omega] at this
    have h3 : Tendsto (fun ε : ℝ => T (l - ε) + ε) (𝓝[>] 0) (𝓝 (T (l - 0) + 0)) :=
      ((hc.comp (continuous_const.sub continuous_id)).add continuous_id).continuousAt.mono_left nhdsWithin_le_nhds
    rw [sub_zero, add_zero] at h3
    exact ge_of_tendsto h3 (eventually_nhdsWithin_of_forall fun ε hε => h2 ε hε)
  have h2 : T L ≤ l := by
    have h2 : ∀ ε > 0, T (L + ε) - ε ≤ l := by
      intro ε hε
      refine le_liminf_of_le bA.isCoboundedUnder_ge ?_
      have e1 := eventually_lt_of_limsup_lt (show limsup φ atTop < L + ε by linarith) bA
      have e2 : ∀ᶠ j in atTop, -ε < φ (j + 1) - T (φ j) := hrec.eventually_const_lt (by linarith)
      have e3 : ∀ᶠ j in atTop, T (L + ε) - ε ≤ φ (j + 1) := by
        filter_upwards [e1, e2] with j h3 h4
        have := hT h3.le
        linarith
      obtain ⟨N, hN⟩ := eventually_atTop.1 e3
      refine eventually_atTop.2 ⟨N + 1, fun j hj => ?_⟩
      have := hN (j - 1) (by omega)
      rwa [show j - 1 + 1 = j by omega] at this
    have h3 : Tendsto (fun ε : ℝ => T (L + ε) - ε) (𝓝[>] 0) (𝓝 (T (L + 0) - 0)) :=
      ((hc.comp (continuous_const.add continuous_id)).sub continuous_id).continuousAt.mono_left nhdsWithin_le_nhds
    rw [sub_zero, add_zero] at h3
    exact le_of_tendsto h3 (eventually_nhdsWithin_of_forall fun ε hε => h2 ε hε)
  have heq : l = L := by
    rcases hlL.lt_or_eq with hlt | he
    · have := hns l L hal hlt hLd
      linarith
    · exact he
  refine ⟨l, tendsto_of_le_liminf_of_limsup_le le_rfl heq.symm.le bA bB, ?_, hal, heq.trans_le hLd⟩
  rw [← heq] at h1 h2
  exact le_antisymm h2 h1

/-- Differences of angles vanish with the differences of their cosines. -/
theorem arccos_sub_tendsto {p q : ℕ → ℝ} (hp : ∀ j, p j ∈ Set.Icc (-1 : ℝ) 1) (hq : ∀ j, q j ∈ Set.Icc (-1 : ℝ) 1)
    (h : Tendsto (fun j => p j - q j) atTop (𝓝 0)) : Tendsto (fun j => Real.arccos (p j) - Real.arccos (q j)) atTop (𝓝 0) := by
  have hu := isCompact_Icc.uniformContinuousOn_of_continuous (s := Set.Icc (-1 : ℝ) 1) Real.continuous_arccos.continuousOn
  rw [Metric.uniformContinuousOn_iff] at hu
  rw [Metric.tendsto_atTop] at h ⊢
  intro ε hε
  obtain ⟨δ, hδ, hu⟩ := hu ε hε
  obtain ⟨N, hN⟩ := h δ hδ
  refine ⟨N, fun j hj => ?_⟩
  have h1 := hu _ (hp j) _ (hq j) (by have := hN j hj; rwa [Real.dist_eq, sub_zero, ← Real.dist_eq] at this)
  rwa [Real.dist_eq, sub_zero, ← Real.dist_eq]

/-- The map of the circle that the half steps follow in the end. -/
noncomputable def rimMap (κ φ : ℝ) : ℝ := Real.pi / 2 - φ + κ * Real.sin φ

theorem rimMap_antitone {κ : ℝ} (h0 : 0 ≤ κ) (h1 : κ ≤ 1) : Antitone (rimMap κ) := by
  intro a b hab
  have h2 : |Real.sin b - Real.sin a| ≤ |b - a| := Real.abs_sin_sub_sin_le b a
  have h3 := (le_abs_self _).trans h2
  rw [abs_of_nonneg (sub_nonneg.2 hab)] at h3
  unfold rimMap
  rcases le_or_gt 0 (Real.sin b - Real.sin a) with h | h <;> nlinarith

theorem rimMap_contracts {κ : ℝ} (h0 : 0 < κ) {l L : ℝ} (hl : 0 ≤ l) (hlL : l < L) (hL : L ≤ Real.pi / 2) : rimMap κ l - rimMap κ L < L - l := by
  have := Real.sin_lt_sin_of_lt_of_le_pi_div_two (by linarith [Real.pi_pos]) hL hlL
  unfold rimMap
  nlinarith

/-- A number with `w² = u² + c²` that is not far above zero is close to `-w`. -/
theorem near_lower_half {u c w M : ℝ} (h3 : 0 < c) (hM0 : 0 ≤ M) (h4 : 0 ≤ w) (h6 : u ≤ M * c) (h7 : w ^ 2 = u ^ 2 + c ^ 2) :
    ‖-u - w‖ ≤ (2 * M + 1) * c := by
  rw [Real.norm_eq_abs, abs_le]
  have h8 : |u| ≤ w := abs_le_of_sq_le_sq (by nlinarith) h4
  obtain ⟨h9, h10⟩ := abs_le.1 h8
  have h11 : w ≤ |u| + c := by
    refine abs_le_of_sq_le_sq' ?_ (by positivity) |>.2
    have := abs_nonneg u
    nlinarith [sq_abs u]
  have hMc : 0 ≤ M * c := by positivity
  constructor
  · rcases le_or_gt 0 u with hu0 | hu0
    · rw [abs_of_nonneg hu0] at h11
      nlinarith
    · rw [abs_of_neg hu0] at h11
      nlinarith
  · nlinarith

/-- Sequences that sink to the rim of the disc and whose second coordinate follows the rule converge. -/
theorem rim_tendsto {κ M : ℝ} {f : ℕ → ℝ × ℝ} (hκ0 : 0 < κ) (hκ1 : κ ≤ 1) (hin : ∀ j, Inner (f j))
    (hstep : ∀ j, (f (j + 1)).2 = Real.cos (Real.arccos (f j).1 + κ * Real.sin (Real.arccos (f j).1))) (hM0 : 0 ≤ M)
    (hM : ∀ j, (f j).1 ≤ M * height (f j)) (hh : Tendsto (fun j => height (f j)) atTop (𝓝 0)) :
    ∃ φ, 2 * φ = Real.pi / 2 + κ * Real.sin φ ∧ 0 ≤ φ ∧ φ ≤ Real.pi / 2 ∧
      Tendsto (fun j => (f j).1) atTop (𝓝 (-Real.cos φ)) ∧ Tendsto (fun j => (f j).2) atTop (𝓝 (-Real.sin φ)) := by
  have hu : ∀ j, -1 < (f j).1 ∧ (f j).1 < 1 := by
    intro j
    have h1 := hin j
    unfold Inner at h1
    exact abs_lt.1 ((sq_lt_one_iff_abs_lt_one _).1 (by nlinarith [sq_nonneg (f j).2]))
  set φ : ℕ → ℝ := fun j => Real.arccos (-(f j).1) with hφ
  have hcos : ∀ j, Real.cos (φ j) = -(f j).1 := fun j => Real.cos_arccos (by linarith [(hu j).2]) (by linarith [(hu j).1])
  have hx : ∀ j, Real.arccos (f j).1 = Real.pi - φ j := by
    intro j
    simp only [hφ]
    rw [Real.arccos_neg]
    ring
  have hv : ∀ j, (f (j + 1)).2 = -Real.cos (φ j - κ * Real.sin (φ j)) := by
    intro j
    rw [hstep, hx, Real.sin_pi_sub, ← Real.cos_pi_sub]
    congr 1
    ring
  have hy : ∀ j, 0 ≤ φ j - κ * Real.sin (φ j) ∧ φ j - κ * Real.sin (φ j) ≤ Real.pi := by
    intro j
    have h1 : 0 ≤ φ j := Real.arccos_nonneg _
    have h2 : φ j ≤ Real.pi := Real.arccos_le_pi _
    have h3 := Real.sin_le h1
    have h4 := Real.sin_nonneg_of_nonneg_of_le_pi h1 h2
    constructor <;> nlinarith
  have hdiff : Tendsto (fun j => -(f (j + 1)).1 - Real.sin (φ j - κ * Real.sin (φ j))) atTop (𝓝 0) := by
    have h1 : Tendsto (fun j => (2 * M + 1) * height (f (j + 1))) atTop (𝓝 0) := by
      have := (hh.comp (tendsto_add_atTop_nat 1)).const_mul (2 * M + 1)
      simpa using this
    refine squeeze_zero_norm (fun j => ?_) h1
    have h2 := height_sq (hin (j + 1))
    have h3 := height_pos (hin (j + 1))
    have h4 := Real.sin_nonneg_of_nonneg_of_le_pi (hy j).1 (hy j).2
    have h5 := Real.sin_sq_add_cos_sq (φ j - κ * Real.sin (φ j))
    rw [hv j] at h2
    set w := Real.sin (φ j - κ * Real.sin (φ j))
    set u := (f (j + 1)).1
    set c := height (f (j + 1))
    have h6 : u ≤ M * c := hM (j + 1)
    exact near_lower_half h3 hM0 h4 h6 (by linarith)
  have hψ : ∀ j, Real.arccos (Real.sin (φ j - κ * Real.sin (φ j))) = |rimMap κ (φ j)| := by
    intro j
    have e : Real.sin (φ j - κ * Real.sin (φ j)) = Real.cos |rimMap κ (φ j)| := by
      rw [Real.cos_abs, ← Real.cos_pi_div_two_sub]
      congr 1
      unfold rimMap
      ring
    rw [e, Real.arccos_cos (abs_nonneg _)]
    have := hy j
    rw [abs_le]
    unfold rimMap
    constructor <;> linarith [Real.pi_pos]
  have hA : Tendsto (fun j => φ (j + 1) - |rimMap κ (φ j)|) atTop (𝓝 0) := by
    have := arccos_sub_tendsto (p := fun j => -(f (j + 1)).1) (q := fun j => Real.sin (φ j - κ * Real.sin (φ j)))
      (fun j => ⟨by linarith [(hu (j + 1)).2], by linarith [(hu (j + 1)).1]⟩) (fun j => ⟨Real.neg_one_le_sin _, Real.sin_le_one _⟩) hdiff
    refine this.congr fun j => ?_
    rw [hψ]
  have hφle : ∀ j, φ j - Real.pi / 2 ≤ Real.arcsin (M * height (f j)) := by
    intro j
    have e : φ j - Real.pi / 2 = Real.arcsin (f j).1 := by
      simp only [hφ]
      rw [Real.arccos, Real.arcsin_neg]
      ring
    rw [e]
    exact Real.monotone_arcsin (hM j)
  have hq : Tendsto (fun j => Real.arcsin (M * height (f j))) atTop (𝓝 0) := by
    have h1 : Tendsto (fun j => M * height (f j)) atTop (𝓝 0) := by simpa using hh.const_mul M
    have := (Real.continuous_arcsin.tendsto 0).comp h1
    rwa [Real.arcsin_zero] at this
  have hB : Tendsto (fun j => |rimMap κ (φ j)| - rimMap κ (φ j)) atTop (𝓝 0) := by
    have h1 : Tendsto (fun j => 2 * Real.arcsin (M * height (f j))) atTop (𝓝 0) := by simpa using hq.const_mul 2
    refine squeeze_zero (fun j => by linarith [le_abs_self (rimMap κ (φ j))]) (fun j => ?_) h1
    have h0 : 0 ≤ Real.arcsin (M * height (f j)) := by
      rw [Real.arcsin_nonneg]
      have := (height_pos (hin j)).le
      positivity
    rcases le_or_gt 0 (rimMap κ (φ j)) with h2 | h2
    · rw [abs_of_nonneg h2]
      linarith
    · rw [abs_of_neg h2]
      have h3 := hφle j
      have h4 : 0 ≤ κ * Real.sin (φ j) := mul_nonneg hκ0.le (Real.sin_nonneg_of_nonneg_of_le_pi (Real.arccos_nonneg _) (Real.arccos_le_pi _))
      unfold rimMap
      linarith
  have hrec : Tendsto (fun j => φ (j + 1) - rimMap κ (φ j)) atTop (𝓝 0) := by
    have := hA.add hB
    rw [add_zero] at this
    exact this.congr fun j => by ring
  have hcont : Continuous (rimMap κ) := by unfold rimMap; fun_prop
  have hlo : ∀ j, 0 ≤ φ j := fun j => Real.arccos_nonneg _
  have hup : ∀ j, φ j ≤ Real.pi := fun j => Real.arccos_le_pi _
  have hev : ∀ ε > 0, ∀ᶠ j in atTop, φ j ≤ Real.pi / 2 + ε := by
    intro ε hε
    filter_upwards [hq.eventually_lt_const hε] with j hj
    have := hφle j
    linarith
  clear_value φ
  obtain ⟨p, hp, hfix, hp0, hp1⟩ := tendsto_of_antitone_map (φ := φ) (T := rimMap κ) (rimMap_antitone hκ0.le hκ1) hcont hlo hup hev hrec
    (fun l L hl hlL hL => rimMap_contracts hκ0 hl hlL hL)
  unfold rimMap at hfix
  have h1 : Tendsto (fun j => (f j).1) atTop (𝓝 (-Real.cos p)) := by
    have := ((Real.continuous_cos.tendsto p).comp hp).neg
    refine this.congr fun j => ?_
    simp only [Function.comp_apply, hcos]
    ring
  have h2 : Tendsto (fun j => (f j).2) atTop (𝓝 (-Real.sin p)) := by
    rw [← tendsto_add_atTop_iff_nat 1]
    have h3 : Continuous fun y : ℝ => -Real.cos (y - κ * Real.sin y) := by fun_prop
    have h4 := (h3.tendsto p).comp hp
    have e : -Real.cos (p - κ * Real.sin p) = -Real.sin p := by
      rw [show p - κ * Real.sin p = Real.pi / 2 - p by linarith, Real.cos_pi_div_two_sub]
    rw [e] at h4
    exact h4.congr fun j => (hv j).symm
  exact ⟨p, by linarith, hp0, hp1, h1, h2⟩

/-- From every point inside the disc the half steps converge to the point at the angle `φ` with `2 φ - κ sin φ = π / 2`. -/
theorem halfFlow_tendsto {κ : ℝ} {s : ℝ × ℝ} (hκ0 : 0 < κ) (hκ1 : κ ≤ 1) (h : Inner s) :
    ∃ φ, 2 * φ = Real.pi / 2 + κ * Real.sin φ ∧ 0 ≤ φ ∧ φ ≤ Real.pi / 2 ∧
      Tendsto (fun j => (halfFlow κ s j).1) atTop (𝓝 (-Real.cos φ)) ∧ Tendsto (fun j => (halfFlow κ s j).2) atTop (𝓝 (-Real.sin φ)) := by
  obtain ⟨M, hM0, hM⟩ := halfFlow_below hκ0 hκ1 h
  exact rim_tendsto hκ0 hκ1 (halfFlow_inner hκ0 hκ1 h) (fun j => rfl) hM0 (fun j => (hM j).1) (halfFlow_height hκ0 hκ1 h)

/-- The limit is away from `π / 4` by an amount of the order of `κ`. -/
theorem circle_fixed_bounds {κ φ : ℝ} (hκ0 : 0 < κ) (h : 2 * φ = Real.pi / 2 + κ * Real.sin φ) (h0 : 0 ≤ φ) (h1 : φ ≤ Real.pi / 2) :
    κ * Real.sqrt 2 / 4 ≤ φ - Real.pi / 4 ∧ φ - Real.pi / 4 ≤ κ / 2 := by
  have hs0 := Real.sin_nonneg_of_nonneg_of_le_pi h0 (by linarith [Real.pi_pos])
  have hge : Real.pi / 4 ≤ φ := by nlinarith
  have hs := Real.sin_le_sin_of_le_of_le_pi_div_two (by linarith [Real.pi_pos]) h1 hge
  rw [Real.sin_pi_div_four] at hs
  have := Real.sin_le_one φ
  constructor <;> nlinarith

end Oranssi
