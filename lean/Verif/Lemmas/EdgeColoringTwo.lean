import Verif.Lemmas.EdgeColoringInv
import Mathlib.Tactic.IntervalCases

/-! # Two colours on a bipartite graph of maximum degree two -/

namespace Oranssi
open Spec

theorem adj_pair {l : List ℕ} (hn : l.Nodup) (h2 : l.length ≤ 2) {v w : ℕ} (hv : v ∈ l) (hw : w ∈ l) (hvw : v ≠ w) :
    l = [v, w] ∨ l = [w, v] := by
  match l, h2 with
  | [], _ => simp at hv
  | [a], _ => simp at hv hw; omega
  | [a, b], _ =>
    simp only [List.mem_cons, List.not_mem_nil, or_false] at hv hw
    rcases hv with rfl | rfl <;> rcases hw with rfl | rfl <;> simp_all

theorem adj_single {l : List ℕ} (hn : l.Nodup) {v : ℕ} (hv : v ∈ l) (h : ∀ w ∈ l, w = v) : l = [v] := by
  match l with
  | [] => simp at hv
  | [a] => simp at hv; simp [hv]
  | a :: b :: t =>
    have h1 := h a (by simp)
    have h2 := h b (by simp)
    simp [h1, h2] at hn

section
variable {G : Graph} (hG : Simple G) (h2 : ∀ u, (G.adj u).length ≤ 2)
include hG h2

theorem level_pair {col : ℕ × ℕ → Option ℕ} {u v w : ℕ} (hv : v ∈ G.adj u) (hw : w ∈ G.adj u) (hvw : v ≠ w) :
    conflictLevel G col u = if col (ekey u v) = col (ekey u w) then 1 else 0 := by
  rw [conflictLevel, Simple.degree hG, colorsAt]
  rcases adj_pair (hG.adj_nodup u) (h2 u) hv hw hvw with h | h <;> rw [h]
  · by_cases he : col (ekey u v) = col (ekey u w)
    · simp [he]
    · simp [he]
  · by_cases he : col (ekey u v) = col (ekey u w)
    · simp [he]
    · simp [Ne.symm he, he]

omit h2 in
theorem level_single {col : ℕ × ℕ → Option ℕ} {u v : ℕ} (hv : v ∈ G.adj u) (h : ∀ w ∈ G.adj u, w = v) :
    conflictLevel G col u = 0 := by
  rw [conflictLevel, Simple.degree hG, colorsAt, adj_single (hG.adj_nodup u) hv h]
  simp

theorem level_pos {col : ℕ × ℕ → Option ℕ} {u : ℕ} (h : conflictLevel G col u ≠ 0) :
    ∃ v w, G.adj u = [v, w] ∧ v ≠ w ∧ col (ekey u v) = col (ekey u w) := by
  have hn := hG.adj_nodup u
  have hl := h2 u
  rw [conflictLevel, Simple.degree hG, colorsAt] at h
  match hadj : G.adj u, hl with
  | [], _ => simp [hadj] at h
  | [a], _ => simp [hadj] at h
  | [a, b], _ =>
    rw [hadj] at hn h
    refine ⟨a, b, rfl, by simpa using hn, ?_⟩
    by_contra hc
    simp [hc] at h

end

theorem sum_change {l : List ℕ} (hn : l.Nodup) {u v : ℕ} (hu : u ∈ l) (hv : v ∈ l) (huv : u ≠ v) (f f' : ℕ → ℕ)
    (h : ∀ x, x ≠ u → x ≠ v → f' x = f x) : (l.map f').sum + f u + f v = (l.map f).sum + f' u + f' v := by
  have one : ∀ (l : List ℕ), l.Nodup → ∀ (u : ℕ) (f f' : ℕ → ℕ), u ∈ l → (∀ x, x ≠ u → f' x = f x) →
      (l.map f').sum + f u = (l.map f).sum + f' u := by
    intro l
    induction l with
    | nil => intro _ u f f' hu; simp at hu
    | cons a l ih =>
      intro hn u f f' hu h
      obtain ⟨ha, hl⟩ := List.nodup_cons.1 hn
      simp only [List.map_cons, List.sum_cons]
      rcases List.mem_cons.1 hu with rfl | hu
      · have : l.map f' = l.map f := List.map_congr_left (fun x hx => h x (fun e => ha (e ▸ hx)))
        rw [this]; omega
      · have := ih hl u f f' hu h
        have : f' a = f a := h a (fun e => ha (e ▸ hu))
        omega
  have h1 := one l hn u f (fun x => if x = u then f' u else f x) hu (fun x hx => by simp [hx])
  have h2 := one l hn v (fun x => if x = u then f' u else f x) f' hv (fun x hx => by
    by_cases hxu : x = u
    · simp [hxu]
    · simp [hxu, h x hxu hx])
  simp only [if_true, Ne.symm huv, if_false] at h1 h2
  omega

/-- State of the chain walk. -/
structure Walk (G : Graph) (side : ℕ → Bool) (g : Bool → ℕ) (col : ℕ × ℕ → Option ℕ) (chain : List ℕ) (last node c : ℕ) : Prop where
  adj : node ∈ G.adj last
  clt : c < 2
  same : ∀ v ∈ G.adj last, col (ekey last v) = some (1 - c)
  other : ∃ v ∈ G.adj last, v ≠ node
  colour : c = g (side last)
  visited : ∀ x ∈ chain, ∃ y ∈ G.adj x, col (ekey x y) = some (g (side x)) ∧
    (∀ z ∈ G.adj x, z ≠ y → col (ekey x z) = some (1 - g (side x))) ∧ (y ∈ chain ∨ y = last) ∧ (y = last → node ≠ x)
  fresh : last ∉ chain

section
variable {G : Graph} (hG : Simple G) (h2 : ∀ u, (G.adj u).length ≤ 2)
  {side : ℕ → Bool} (hs : ∀ u, ∀ v ∈ G.adj u, side v = !side u) {g : Bool → ℕ} (hg : ∀ b, g b < 2 ∧ g (!b) = 1 - g b)
include hG h2 hs hg

theorem walk_decreases (rs : ℕ → ℕ) : ∀ (fuel : ℕ) (st : EC) (cd : ConflictDict) (chain : List ℕ) (last node c : ℕ),
    Inv G 2 st.col cd → Walk G side g st.col chain last node c →
    NoDiv (kempeProcess G rs fuel st cd chain last (some (node, some c))) →
    ∃ st' cd', kempeProcess G rs fuel st cd chain last (some (node, some c)) = .ok (st', cd') ∧ Inv G 2 st'.col cd' ∧
      totalNumberOfConflicts cd' < totalNumberOfConflicts cd := by
  intro fuel
  induction fuel with
  | zero => intro st cd chain last node c _ _ h; exact absurd rfl h
  | succ fuel ih =>
    intro st cd chain last node c hi hw hdiv
    simp only [kempeProcess] at hdiv ⊢
    rw [if_neg hw.fresh] at hdiv ⊢
    obtain ⟨st', cd', nxt, e, hcol, hi', p1, p2⟩ := kempeStep_ok hG h2 rs hi hw.adj hw.clt
    simp only [e, bind, Except.bind] at hdiv ⊢
    rw [hi.total hG h2]
    have hne := Simple.adj_ne hG hw.adj
    have hlast := Simple.mem_nodes hG hw.adj
    have hnode := hG.closed last node hw.adj
    have hback := hG.symm _ _ hw.adj
    have hk : ekey node last = ekey last node := ekey_comm _ _
    have hclt := hw.clt
    have hother : ∀ k, k ≠ ekey last node → st'.col k = st.col k := fun k hk => by rw [hcol]; exact setColor_other hk
    have hself : st'.col (ekey last node) = some c := by rw [hcol]; exact setColor_self _ _ _ _
    have hsum := sum_change hG.nodes_nodup hlast hnode hne (conflictLevel G st.col) (conflictLevel G st'.col)
      (fun x hx hx' => by rw [hcol]; exact level_setColor_other hx hx')
    have hc1 : (some (1 - c) : Option ℕ) ≠ some c := by simp; omega
    -- the level of `last` drops from 1 to 0
    obtain ⟨v, hv, hvn⟩ := hw.other
    have l1 : conflictLevel G st.col last = 1 := by
      rw [level_pair hG h2 hv hw.adj hvn, hw.same v hv, hw.same node hw.adj, if_pos rfl]
    have l2 : conflictLevel G st'.col last = 0 := by
      rw [level_pair hG h2 hv hw.adj hvn, hself, hother _ (by rw [Ne, ekey_left_inj]; exact hvn), hw.same v hv, if_neg hc1]
    rw [l1, l2] at hsum
    have stop : nxt = none → conflictLevel G st'.col node ≤ conflictLevel G st.col node →
        ∃ st'' cd'', kempeProcess G rs fuel st' cd' (last :: chain) node nxt = .ok (st'', cd'') ∧ Inv G 2 st''.col cd'' ∧
          totalNumberOfConflicts cd'' < (G.nodes.map (conflictLevel G st.col)).sum := by
      rintro rfl hle
      cases fuel with
      | zero => exact absurd rfl hdiv
      | succ fuel =>
        refine ⟨st', cd', rfl, hi', ?_⟩
        rw [hi'.total hG h2]
        omega
    by_cases hsingle : ∀ w ∈ G.adj node, w = last
    · apply stop
      · cases nxt with
        | none => rfl
        | some p =>
          obtain ⟨-, -, -, q4, q5, -⟩ := p2 p.1 p.2 rfl
          exact absurd (hsingle _ q4) q5
      · rw [level_single hG hback hsingle, level_single hG hback hsingle]
    · push Not at hsingle
      obtain ⟨w, hw1, hw2⟩ := hsingle
      have honly : ∀ z ∈ G.adj node, z ≠ last → z = w := by
        intro z hz hzl
        rcases adj_pair (hG.adj_nodup node) (h2 node) hw1 hback hw2 with h | h <;> rw [h] at hz <;> simp at hz <;> omega
      have hkw : ekey node w ≠ ekey last node := by rw [← hk, Ne, ekey_left_inj]; exact hw2
      have ln : conflictLevel G st.col node = if st.col (ekey node w) = some (1 - c) then 1 else 0 := by
        rw [level_pair hG h2 hw1 hback hw2, hk, hw.same node hw.adj]
      have ln' : conflictLevel G st'.col node = if st.col (ekey node w) = some c then 1 else 0 := by
        rw [level_pair hG h2 hw1 hback hw2, hk, hself, hother _ hkw]
      by_cases hwc : st.col (ekey node w) = some c
      · -- the conflict moves on
        rw [if_pos hwc] at ln'
        rw [hwc, if_neg hc1.symm] at ln
        rw [ln, ln'] at hsum
        cases nxt with
        | none =>
          exfalso
          rcases p1 rfl with h | h
          · omega
          · exact h w hw1 hw2 hwc
        | some p =>
          obtain ⟨w', d⟩ := p
          obtain ⟨-, q2, -, q4, q5, -⟩ := p2 w' d rfl
          have hw' := honly w' q4 q5
          subst hw'
          rw [hw.same node hw.adj] at q2
          subst q2
          have hgs := hg (side last)
          have hsn : side node = !side last := hs last node hw.adj
          have hcg : 1 - c = g (side node) := by rw [hsn, hgs.2, ← hw.colour]
          have hnc : node ∉ chain := by
            intro hx
            obtain ⟨y, hy, y1, y2, -, y4⟩ := hw.visited node hx
            by_cases hyl : y = last
            · exact y4 hyl rfl
            · have := y2 last hback (Ne.symm hyl)
              rw [hk, hw.same node hw.adj, ← hcg] at this
              simp at this
              omega
          have hwalk : Walk G side g st'.col (last :: chain) node w' (1 - c) := by
            refine ⟨hw1, by omega, ?_, ⟨last, hback, Ne.symm hw2⟩, hcg, ?_, ?_⟩
            · intro z hz
              rw [show 1 - (1 - c) = c by omega]
              by_cases hzl : z = last
              · rw [hzl, hk, hself]
              · rw [honly z hz hzl, hother _ hkw, hwc]
            · intro x hx
              rcases List.mem_cons.1 hx with rfl | hx
              · refine ⟨node, hw.adj, by rw [hself, hw.colour], ?_, Or.inr rfl, fun _ => hw2⟩
                intro z hz hzn
                rw [hother _ (by rw [Ne, ekey_left_inj]; exact hzn), hw.same z hz, ← hw.colour]
              · obtain ⟨y, hy, y1, y2, y3, y4⟩ := hw.visited x hx
                have hxl : x ≠ last := fun e => hw.fresh (e ▸ hx)
                have hxn : x ≠ node := fun e => hnc (e ▸ hx)
                have hkx : ∀ z, ekey x z ≠ ekey last node := by
                  intro z; rw [Ne, ekey_eq_iff]; omega
                refine ⟨y, hy, by rw [hother _ (hkx y)]; exact y1, ?_, ?_, ?_⟩
                · intro z hz hzy
                  rw [hother _ (hkx z)]; exact y2 z hz hzy
                · left
                  rcases y3 with h | h
                  · exact List.mem_cons_of_mem _ h
                  · rw [h]; exact List.mem_cons_self
                · rintro rfl
                  rcases y3 with h | h
                  · exact absurd h hnc
                  · exact absurd h.symm hne
            · intro hx
              rcases List.mem_cons.1 hx with h | h
              · exact hne h.symm
              · exact hnc h
          obtain ⟨st2, cd2, e2, hi2, ht⟩ := ih st' cd' (last :: chain) node w' (1 - c) hi' hwalk hdiv
          refine ⟨st2, cd2, e2, hi2, ?_⟩
          rw [hi'.total hG h2] at ht
          omega
      · -- a second conflict is resolved
        have hwc' : st.col (ekey node w) = some (1 - c) := by
          obtain ⟨d, hd, ed⟩ := hi.range node w hw1
          rw [ed] at hwc ⊢
          simp only [Option.some.injEq] at hwc ⊢
          omega
        rw [if_neg hwc] at ln'
        rw [if_pos hwc'] at ln
        apply stop
        · cases nxt with
          | none => rfl
          | some p =>
            obtain ⟨q1, -⟩ := p2 p.1 p.2 rfl
            omega
        · omega

omit hg in
theorem start_decreases (rs : ℕ → ℕ) (fuel : ℕ) (hf : G.nodes.length + 2 ≤ fuel) {st : EC} {cd : ConflictDict} (hi : Inv G 2 st.col cd)
    (node : ℕ) (hn : conflictLevel G st.col node ≠ 0) :
    ∃ st' cd', kempeStart G rs fuel st 2 node cd = .ok (st', cd') ∧ Inv G 2 st'.col cd' ∧
      totalNumberOfConflicts cd' < totalNumberOfConflicts cd := by
  have hdiv := start_noDiv G hG.closed rs fuel hf st 2 node cd
  obtain ⟨v, w, hadj, hvw, hcol⟩ := level_pos hG h2 hn
  have hv : v ∈ G.adj node := by rw [hadj]; simp
  have hw : w ∈ G.adj node := by rw [hadj]; simp
  obtain ⟨d, hd, ed⟩ := hi.range node v hv
  have hscan : kempeScan G st.col 2 node = ([1 - d], some w) := by
    rw [kempeScan, hadj]
    simp only [List.foldl_cons, List.foldl_nil, ← hcol, ed]
    interval_cases d <;> simp [List.range, List.range.loop]
  unfold kempeStart at hdiv ⊢
  simp only [hscan] at hdiv ⊢
  obtain ⟨c, hc, ec⟩ := choice_ok rs st.rng (l := [1 - d]) (by simp)
  simp only [List.mem_singleton] at hc
  subst hc
  simp only [ec, bind, Except.bind] at hdiv ⊢
  have hwalk : Walk G side (fun b => if b = side node then 1 - d else 1 - (1 - d)) st.col [] node w (1 - d) := by
    refine ⟨hw, by omega, ?_, ⟨v, hv, hvw⟩, by simp, by simp, by simp⟩
    intro z hz
    rw [hadj] at hz
    simp only [List.mem_cons, List.not_mem_nil, or_false] at hz
    rw [show 1 - (1 - d) = d by omega]
    rcases hz with rfl | rfl
    · exact ed
    · rw [← hcol]; exact ed
  refine walk_decreases hG h2 hs ?_ rs fuel { st with rng := st.rng + 1 } cd [] node w (1 - d) hi hwalk hdiv
  intro b
  cases b <;> cases side node <;> simp <;> omega

omit hg in
theorem heuristicLoop_two (rs : ℕ → ℕ) (pfuel : ℕ) (hp : G.nodes.length + 2 ≤ pfuel) (rl : ℤ) :
    ∀ (fuel : ℕ) (st : EC) (cd : ConflictDict) (prev : ℕ), Inv G 2 st.col cd → prev = totalNumberOfConflicts cd →
      NoDiv (heuristicLoop G rs pfuel 2 rl fuel st cd 0 prev) →
      ∃ st' cd', heuristicLoop G rs pfuel 2 rl fuel st cd 0 prev = .ok (true, st') ∧ Inv G 2 st'.col cd' ∧
        totalNumberOfConflicts cd' = 0 := by
  intro fuel
  induction fuel with
  | zero => intro st cd prev _ _ h; exact absurd rfl h
  | succ fuel ih =>
    intro st cd prev hi ht hdiv
    unfold heuristicLoop at hdiv ⊢
    by_cases h0 : prev > 0
    · rw [if_pos h0] at hdiv ⊢
      obtain ⟨m, e1, hne, hm⟩ := max_ok hi (by omega)
      obtain ⟨node, hnode, e2⟩ := choice_ok rs st.rng hne
      obtain ⟨-, hm2, hm3⟩ := hm node hnode
      simp only [e1, e2, bind, Except.bind] at hdiv ⊢
      obtain ⟨st', cd', e3, hi', hlt⟩ := start_decreases hG h2 hs rs pfuel hp (st := { st with rng := st.rng + 1 }) hi node
        (by dsimp only; omega)
      simp only [e3] at hdiv ⊢
      split
      · rename_i c0
        exact ⟨st', cd', rfl, hi', c0⟩
      · rename_i c0
        rw [if_neg c0, if_neg (by omega)] at hdiv
        rw [if_neg (by omega)]
        exact ih _ _ _ hi' (by omega) hdiv
    · rw [if_neg h0]
      exact ⟨st, cd, rfl, hi, by omega⟩

end

end Oranssi
