import Verif.Props.StepBound

/-! # C34: the loop of `StochasticLieAlgebraLayer.__call__` that the missing draw keeps from running -/

namespace Oranssi
open Spec
open scoped Matrix
open scoped Matrix.Norms.L2Operator
variable {n : ℕ}

/-- C34 (the loop behind the drawing).  The constructor fills no table of operators, so even for a drawn direction the loop would raise a `KeyError` at the first observable. -/
theorem C34_empty_table {gs : List (Gate n)} {args : LayerArgs} {L : StochasticLayer n} (hL : stochasticLayer n (gs.map Gate.obs) args = .ok L) (hne : gs ≠ []) (svd : SvdFn n) (φ : Ket n)
    (k : Key) (U : QMat n) : stochasticLoop svd L φ k L.observables U = .error .key := by
  rw [stochasticLayer, promoteAll_gates] at hL
  obtain ⟨os0, h0, hL⟩ := bind_ok_iff.1 hL
  obtain ⟨e, -, hL⟩ := bind_ok_iff.1 hL
  obtain ⟨os, hos, hL⟩ := bind_ok_iff.1 hL
  obtain rfl := Except.ok.inj hos
  obtain ⟨b, -, hL⟩ := bind_ok_iff.1 hL
  obtain ⟨t, -, hL⟩ := bind_ok_iff.1 hL
  obtain rfl := Except.ok.inj hL
  obtain ⟨g, gs, rfl⟩ := List.exists_cons_of_ne_nil hne
  rfl

theorem stochasticLoop_eq {svd : SvdFn n} (hs : ValidSvd svd) (L : StochasticLayer n) (φ : Ket n) {k : Key} {p : QMat n} (hk : dictGet L.lastate.fullPaulis k = .ok p) (hp : pᴴ = p) :
    ∀ (os : List (QMat n)), (∀ o ∈ os, oᴴ = o) → ∀ U, stochasticLoop svd L φ k os U =
      .ok ((os.flatMap (fun o => [[p]].flatMap (groupFactors L.eta true φ o))).foldl (fun U F => F * U) U)
  | [], _, _ => rfl
  | o :: os, ho, U => by
    have hu : Unitary (NormedSpace.exp ((-(L.eta / 2 ^ n : ℝ) : ℂ) • (omegaC φ p o • p))) :=
      (exp_skew_unitary _ (by
        have := real_smul_skew (L.eta / 2 ^ n) (omegaC_smul_skew φ hp (ho o List.mem_cons_self))
        push_cast at this ⊢
        exact this)).1
    rw [stochasticLoop, hk]
    change stochasticLoop svd L φ k os (checkUpdate svd L.check _ * U) = _
    rw [checkUpdate_unitary hs _ hu, stochasticLoop_eq hs L φ hk hp os (fun o' h' => ho o' (List.mem_cons_of_mem _ h')), List.flatMap_cons, List.foldl_append]
    simp [groupFactors]

/-- C34 (what a repaired draw would do).  With a Pauli operator `p` in the table for the drawn direction, the loop returns; the cost changes by `-eta / 2^n` times the squared gradient along `p`, up to a
quadratic remainder. -/
theorem C34_step {svd : SvdFn n} (hs : ValidSvd svd) (gs : List (Gate n)) (hH : ∀ g ∈ gs, g.Aᴴ = g.A) (L : StochasticLayer n) (hη : 0 ≤ L.eta) (ho : L.observables = gs.map (fun g => full n g.ws g.A))
    (k : Key) (w : Fin n → Letter) (hk : dictGet L.lastate.fullPaulis k = .ok (pauliWord w)) (U : QMat n) (hU : Unitary U) :
    ∃ V, stochasticLoop svd L (stateFromUnitary U) k L.observables U = .ok V ∧
      |cost (totalObs gs) V - cost (totalObs gs) U + L.eta / 2 ^ n * grad (totalObs gs) U (pauliWord w) ^ 2| ≤
        2 * ‖totalObs gs‖ * (L.eta / 2 ^ n * (gs.map (fun g => |grad (full n g.ws g.A) U (pauliWord w)|)).sum) ^ 2 := by
  refine ⟨_, stochasticLoop_eq hs L _ hk (pauliWord_herm w) _ (by rw [ho]; exact gates_herm hH) U, ?_⟩
  have := sweep_bound gs hH [[pauliWord w]] (by simp [pauliWord_herm]) (by simp [pauliWord_norm]) true U hU hη
  rw [ho]
  simpa using this

/-- A layer with a filled table, and a drawn direction. -/
example : ∃ (L : StochasticLayer 1) (gs : List (Gate 1)) (k : Key) (w : Fin 1 → Letter), (∀ g ∈ gs, g.Aᴴ = g.A) ∧ 0 ≤ L.eta ∧ L.observables = gs.map (fun g : Gate 1 => full 1 g.ws g.A) ∧
    dictGet L.lastate.fullPaulis k = .ok (pauliWord w) :=
  ⟨⟨0.1, { algebraSU4 1 true with fullPaulis := [(("X", [0]), pauliWord (fun _ => .X))] }, [full 1 [0] (pauliWord (n := 1) (fun _ => .Z))], false, false⟩,
    [⟨[0], pauliWord (n := 1) (fun _ => .Z), by simp, by simp, by simp⟩], ("X", [0]), fun _ => .X, fun g hg => by rw [List.mem_singleton.1 hg]; exact pauliWord_herm _, by norm_num, rfl, by simp [dictGet]⟩

end Oranssi
