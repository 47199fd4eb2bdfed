import Verif.Units.RenumLoop
import Verif.Props.Variables
import Verif.Props.DesignAll
import Verif.Props.GPOrder

/-! # Property C123: the numbering of the variables -/

namespace Verif.Props

open Verif.Num Verif.Utils Verif.Cand Verif.Design Verif.Strategy Verif.Spec Verif.Loop

variable {d m n : ℕ}

/-- What an observer sees of a run, and of a run in which variable `i` is the variable `π i` of the first. -/
structure RenumRun (π : Equiv.Perm (Fin d)) (w w' : Sys (Pt d)) : Prop where
  proposals : proposals w'.st.log = (proposals w.st.log).map fun x i => x (π i)
  inflight : w'.inflight = w.inflight.map fun x i => x (π i)
  completions : completions w'.st.log = (completions w.st.log).map fun e => (fun i => e.1 (π i), e.2)
  terminated : Event.terminated ∈ w'.st.log ↔ Event.terminated ∈ w.st.log

theorem renumRun_mapPt (π : Equiv.Perm (Fin d)) (w : Sys (Pt d)) : RenumRun π w (w.mapPt (renum π)) where
  proposals := proposals_mapPt _ _
  inflight := inflight_mapPt _
  completions := completions_mapPt _ _
  terminated := by
    simp only [Sys.mapPt, State.mapPt, List.mem_map]
    constructor
    · rintro ⟨e, he, h⟩
      cases e <;> simp [Event.mapPt] at h
      exact he
    · intro h; exact ⟨_, h, rfl⟩

/-- All strategies, continuous and integer variables: with the same schedule and the renumbered draws, the run on the problem
with renumbered variables (bounds, integer variables, design and extra points renumbered) proposes the renumbered points in the
same order, and one raises an exception iff the other does. -/
theorem C123_run_partial (π : Equiv.Perm (Fin d)) (L : Setup d) (S S' : Surr d) (f f' : Pt d → Val)
    (hf : ∀ x, f' (fun i => x (π i)) = f x) (D : List (Pt d)) (es : List (Ev d))
    (hS : ∀ es' w', es' <+: es → loopRun L S f D es' = some w' → S.RenumAt π S' (surrData w'.st)) :
    (loopRun L S f D es = none ↔
      loopRun (L.renum π) S' f' (D.map fun x i => x (π i)) (es.map (Ev.renum π)) = none) ∧
    ∀ w, loopRun L S f D es = some w →
      ∃ w', loopRun (L.renum π) S' f' (D.map fun x i => x (π i)) (es.map (Ev.renum π)) = some w' ∧ RenumRun π w w' := by
  have h := loopRun_renum π L S S' f f' hf D es hS
  rw [show loopRun (L.renum π) S' f' (D.map fun x i => x (π i)) (es.map (Ev.renum π)) = _ from h]
  exact ⟨by simp, fun w hw => ⟨_, by rw [hw]; rfl, renumRun_mapPt π w⟩⟩

/-! ## The renumbered draws are possible -/

/-- The renumbered draws are in the ranges of their distributions, if the renumbered design is possible (see below). -/
theorem C123_draws (π : Equiv.Perm (Fin d)) (L : Setup d) (s : State (Pt d)) (r : Rnd d) (hr : RndOk L s r)
    (hD : DesignOf (L.prob.renum π) L.cfg.numPts (r.renum π).design) : RndOk (L.renum π) (s.mapPt (renum π)) (r.renum π) := by
  obtain ⟨_, h2, h3, h4, h5⟩ := hr
  refine ⟨hD, ?_, ?_, ?_, ?_⟩
  · show (r.runs.map (renumRun π)).length = _
    rw [List.length_map, h2]; rfl
  · intro g hg q i
    obtain ⟨g0, hg0, rfl⟩ := List.mem_map.mp hg
    exact h3 g0 hg0 q (π i)
  · intro j c
    show 0 ≤ renumCol π (r.u j) c ∧ renumCol π (r.u j) c < 1
    unfold renumCol
    split_ifs
    · exact h4 j _
    · exact h4 j _
  · intro k X fX z hX hf hz j i
    obtain ⟨X0, rfl⟩ : ∃ X0 : Fin (k + 1) → Pt d, X = fun i => renum π (X0 i) :=
      ⟨fun i => Function.surjInv (renum_surjective π) (X i), by
        funext i; exact (Function.surjInv_eq (renum_surjective π) (X i)).symm⟩
    have hX0 : s.curX = List.ofFn X0 := by
      apply List.map_injective_iff.mpr (renum_injective π)
      rw [List.map_ofFn]
      exact hX
    have := h5 k X0 fX z hX0 hf hz j (π i)
    rw [show (L.renum π).prob = L.prob.renum π from rfl, scalefactors_renum]
    exact this

/-- Two designs that differ in the numbering of the variables and the order of the points. -/
def Renumbered (π : Equiv.Perm (Fin d)) (X Y : Des n d) : Prop :=
  ∃ ρ : Equiv.Perm (Fin n), ∀ i j, Y i j = X (ρ i) (π j)

theorem Renumbered.score {π : Equiv.Perm (Fin d)} {X Y : Des n d} (h : Renumbered π X Y) : score Y = score X := by
  obtain ⟨ρ, h⟩ := h
  have he : ∀ i j, eucl (Y i) (Y j) = eucl (X (ρ i)) (X (ρ j)) := by
    intro i j
    rw [show Y i = renum π (X (ρ i)) from funext (h i), show Y j = renum π (X (ρ j)) from funext (h j), eucl_renum]
  unfold Design.score
  have hp : ∀ p : Fin n × Fin n, (if p.1 = p.2 then (⊤ : WithTop ℝ) else ((eucl (Y p.1) (Y p.2) : ℝ) : WithTop ℝ)) =
      if ρ p.1 = ρ p.2 then ⊤ else ((eucl (X (ρ p.1)) (X (ρ p.2)) : ℝ) : WithTop ℝ) := by
    intro p
    simp only [he, ρ.injective.eq_iff]
  apply le_antisymm
  · refine Finset.le_inf fun q _ => ?_
    have := Finset.inf_le (f := fun p : Fin n × Fin n => if p.1 = p.2 then (⊤ : WithTop ℝ) else
      ((eucl (Y p.1) (Y p.2) : ℝ) : WithTop ℝ)) (Finset.mem_univ (ρ.symm q.1, ρ.symm q.2))
    beta_reduce at this
    rw [hp] at this
    simpa using this
  · refine Finset.le_inf fun q _ => ?_
    rw [hp]
    exact Finset.inf_le (f := fun p : Fin n × Fin n => if p.1 = p.2 then (⊤ : WithTop ℝ) else
      ((eucl (X p.1) (X p.2) : ℝ) : WithTop ℝ)) (Finset.mem_univ (ρ q.1, ρ q.2))

theorem Renumbered.rank {π : Equiv.Perm (Fin d)} {X Y : Des n d} (h : Renumbered π X Y) :
    (Matrix.of Y).rank = (Matrix.of X).rank := by
  obtain ⟨ρ, h⟩ := h
  rw [show Matrix.of Y = (Matrix.of X).submatrix ρ π from by ext i j; exact h i j]
  exact Matrix.rank_submatrix _ _ _

theorem pick_renum {π : Equiv.Perm (Fin d)} {G G' : List (Des n d)} (hG : List.Forall₂ (Renumbered π) G G')
    {s s' : Option (Des n d) × WithTop ℝ} (h1 : Option.Rel (Renumbered π) s.1 s'.1) (h2 : s'.2 = s.2) :
    Option.Rel (Renumbered π) (G.foldl pickStep s).1 (G'.foldl pickStep s').1 := by
  induction hG generalizing s s' with
  | nil => exact h1
  | @cons X Y G G' hXY _ ih =>
    rw [List.foldl_cons, List.foldl_cons]
    have hc : (Design.score Y > s'.2 ∧ (Matrix.of Y).rank = d) ↔ (Design.score X > s.2 ∧ (Matrix.of X).rank = d) := by
      rw [hXY.score, hXY.rank, h2]
    unfold pickStep
    by_cases h : Design.score X > s.2 ∧ (Matrix.of X).rank = d
    · rw [if_pos h, if_pos (hc.mpr h)]
      exact ih (.some hXY) hXY.score
    · rw [if_neg h, if_neg (fun h' => h (hc.mp h'))]
      exact ih h1 h2

theorem mapDesign_renum {π : Equiv.Perm (Fin d)} (p : OptProb d) {X Y : Des n d} {ρ : Equiv.Perm (Fin n)}
    (h : ∀ i j, Y i j = X (ρ i) (π j)) (i : Fin n) :
    mapDesign (some ((p.renum π).lb, (p.renum π).ub)) (p.renum π).intVar Y i =
      renum π (mapDesign (some (p.lb, p.ub)) p.intVar X (ρ i)) := by
  simp only [mapDesign]
  rw [← roundVars_renum, show Y i = renum π (X (ρ i)) from funext (h i)]
  rfl

theorem expdes_renum {π : Equiv.Perm (Fin d)} (p : OptProb d) {G G' : List (Des n d)}
    (hG : List.Forall₂ (Renumbered π) G G') :
    Option.Rel (Renumbered π) (expdesDist G (some (p.lb, p.ub)) p.intVar)
      (expdesDist G' (some ((p.renum π).lb, (p.renum π).ub)) (p.renum π).intVar) := by
  unfold expdesDist
  refine pick_renum ?_ .none rfl
  rw [List.forall₂_map_left_iff, List.forall₂_map_right_iff]
  refine hG.imp fun X Y h => ?_
  obtain ⟨ρ, h⟩ := h
  exact ⟨ρ, fun i j => congrFun (mapDesign_renum p h i) j⟩

/-- Latin hypercube: the renumbered design is a possible design of the renumbered problem. -/
theorem C123_lhd (π : Equiv.Perm (Fin d)) (p : OptProb d) (rnd : List ((Fin n → Fin d → ℝ) × (Fin d → Equiv.Perm (Fin n))))
    (X : Des n d) (hX : lhdPoints n d rnd (some (p.lb, p.ub)) p.intVar = some X) :
    lhdPoints n d (rnd.map fun r => (fun k j => r.1 k (π j), fun j => r.2 (π j))) (some ((p.renum π).lb, (p.renum π).ub))
      (p.renum π).intVar = some fun i j => X i (π j) := by
  unfold lhdPoints expdesDist at hX ⊢
  have key : ∀ (G : List (Des n d)) (s : Option (Des n d) × WithTop ℝ),
      (G.map fun X i => renum π (X i)).foldl pickStep (s.1.map fun X i => renum π (X i), s.2) =
        ((G.foldl pickStep s).1.map fun X i => renum π (X i), (G.foldl pickStep s).2) := by
    intro G
    induction G with
    | nil => intro s; rfl
    | cons X G ih =>
      intro s
      have hR : Renumbered π X (fun i => renum π (X i)) := ⟨1, fun _ _ => rfl⟩
      rw [List.map_cons, List.foldl_cons, List.foldl_cons, ← ih]
      congr 1
      unfold pickStep
      rw [hR.score, hR.rank]
      dsimp only
      split_ifs <;> rfl
  have h := key ((rnd.map fun r => lhs n d r.1 r.2).map (mapDesign (some (p.lb, p.ub)) p.intVar)) (none, 0)
  rw [Option.map_none] at h
  have hg : ((rnd.map fun r => ((fun k j => r.1 k (π j), fun j => r.2 (π j)) :
      (Fin n → Fin d → ℝ) × (Fin d → Equiv.Perm (Fin n)))).map fun r => lhs n d r.1 r.2).map
      (mapDesign (some ((p.renum π).lb, (p.renum π).ub)) (p.renum π).intVar) =
      ((rnd.map fun r => lhs n d r.1 r.2).map (mapDesign (some (p.lb, p.ub)) p.intVar)).map fun X i => renum π (X i) := by
    simp only [List.map_map]
    apply List.map_congr_left
    intro r _
    funext i
    simp only [Function.comp_apply]
    exact mapDesign_renum (π := π) (X := lhs n d r.1 r.2) (ρ := 1) p (fun i j => rfl) i
  rw [hg, h, hX]
  rfl

theorem product01_renum (π : Equiv.Perm (Fin d)) : (product01 d).Perm ((product01 d).map (renum π)) := by
  refine (List.perm_ext_iff_of_nodup (nodup_product01 d)
    ((List.nodup_map_iff (renum_injective π)).mpr (nodup_product01 d))).mpr fun x => ?_
  rw [List.mem_map, mem_product01]
  constructor
  · intro h
    exact ⟨fun i => x (π.symm i), (mem_product01 d _).mpr fun j => h _, by funext i; simp [renum]⟩
  · rintro ⟨y, hy, rfl⟩ j
    exact (mem_product01 d y).mp hy (π j)

/-- Every design: the points of a design are, after renumbering and in some other order, a possible design of the renumbered
problem. -/
theorem C123_design_partial (π : Equiv.Perm (Fin d)) (p : OptProb d) (D : List (Pt d)) (h : DesignOf p n D) :
    ∃ D', DesignOf (p.renum π) n D' ∧ D'.Perm (D.map fun x i => x (π i)) := by
  rcases h with ⟨hn, rnd, X, hX, rfl⟩ | ⟨rnd, X, hr, hX, rfl⟩ | ⟨hd, rfl⟩
  · -- symmetric Latin hypercube: every renumbered candidate can be drawn, in another order
    have hex : ∀ r : (ℕ → ℕ → Bool) × (ℕ → Equiv.Perm (Fin (n / 2))), ∃ r' : (ℕ → ℕ → Bool) × (ℕ → Equiv.Perm (Fin (n / 2))),
        Renumbered π (slhd n d r.1 r.2) (slhd n d r'.1 r'.2) := by
      intro r
      have hs : SymLatin (fun i j => slhd n d r.1 r.2 i (π j)) :=
        ⟨fun j k => (C43_latin hn r.1 r.2 (π j) k k.2).exists, fun i => ⟨i.rev, fun j => by rw [C43_symmetric hn]; ring⟩⟩
      obtain ⟨ρ, coin, σ, h⟩ := (C124_exactly hn _).mp hs
      exact ⟨(coin, σ), ρ, fun i j => congrFun (h i) j⟩
    choose g hg using hex
    have hrel := expdes_renum p (π := π) (G := rnd.map fun r => slhd n d r.1 r.2) (G' := (rnd.map g).map fun r => slhd n d r.1 r.2)
      (by
        rw [List.map_map, List.forall₂_map_left_iff, List.forall₂_map_right_iff]
        exact List.forall₂_same.mpr fun r _ => hg r)
    unfold slhdPoints at hX
    rw [hX] at hrel
    rcases hY : expdesDist ((rnd.map g).map fun r => slhd n d r.1 r.2) (some ((p.renum π).lb, (p.renum π).ub)) (p.renum π).intVar
      with _ | Y
    · rw [hY] at hrel; cases hrel
    rw [hY] at hrel
    cases hrel with
    | some hR =>
      obtain ⟨ρ, hρ⟩ := hR
      refine ⟨List.ofFn Y, .inl ⟨hn, rnd.map g, Y, hY, rfl⟩, ?_⟩
      rw [List.map_ofFn, show Y = (fun i => renum π (X i)) ∘ ρ from funext fun i => funext fun j => hρ i j]
      exact Equiv.Perm.ofFn_comp_perm ρ _
  · refine ⟨_, .inr (.inl ⟨_, _, ?_, C123_lhd π p rnd X hX, rfl⟩), ?_⟩
    · intro r hr'
      obtain ⟨r0, hr0, rfl⟩ := List.mem_map.mp hr'
      exact fun i j => hr r0 hr0 i (π j)
    · rw [List.map_ofFn]
      exact List.Perm.refl _
  · refine ⟨_, .inr (.inr ⟨hd, rfl⟩), ?_⟩
    have h1 := (product01_renum π).map fun x => roundVars (fromUnitBox x (p.renum π).lb (p.renum π).ub) (p.renum π).intVar
      (p.renum π).lb (p.renum π).ub
    refine h1.trans ?_
    simp only [twoFactorialPoints, List.map_map]
    refine List.Perm.of_eq (List.map_congr_left fun x _ => ?_)
    exact roundVars_renum π (fromUnitBox x p.lb p.ub) p

/-! ## The symmetric Latin hypercube is sorted by the first variable -/

/-- The renumbered design is in general not a possible design: for every `n ≥ 2` there are draws such that the symmetric Latin
hypercube in the unit square, with its two variables exchanged, is returned by `generate_points` for no draws.  (The points are
sorted by the first variable, C124_sorted.) -/
theorem C123_slhd_refuted (hn : 2 ≤ n) : ∃ (rnd : List ((ℕ → ℕ → Bool) × (ℕ → Equiv.Perm (Fin (n / 2))))) (X : Des n 2),
    slhdPoints n 2 rnd (some (![0, 0], ![1, 1])) [] = some X ∧
    ∀ rnd', slhdPoints n 2 rnd' (some (![0, 0], ![1, 1])) [] ≠ some fun i j => X i (Equiv.swap 0 1 j) := by
  -- the antidiagonal
  let L : Fin 2 → Equiv.Perm (Fin n) := fun j => if j = 0 then 1 else Fin.revPerm
  have hcast : ((n - 1 : ℕ) : ℝ) = (n : ℝ) - 1 := by rw [Nat.cast_sub (by omega)]; simp
  have hp := pred_pos hn
  obtain ⟨coin, σ, h⟩ := slhd_exists hn L (by
    intro j i
    by_cases hj : j = 0
    · subst hj; rfl
    · simp [L, hj]) (by
    intro j hj
    have : j = 0 := Fin.ext hj
    simp [L, this])
  have h0 : ∀ i : Fin n, slhd n 2 coin σ i 0 = (i : ℝ) / ((n : ℝ) - 1) := fun i => by rw [h]; simp [L]
  have h1 : ∀ i : Fin n, slhd n 2 coin σ i 1 = 1 - slhd n 2 coin σ i 0 := fun i => by
    rw [h0, h, show L 1 i = i.rev from rfl, Fin.val_rev, show n - (i.1 + 1) = n - 1 - i.1 by omega,
      Nat.cast_sub (by have := i.2; omega), hcast, sub_div, div_self hp.ne']
  obtain ⟨hX, _⟩ := expdes_antidiag hn h1 (fun i k hik he => by
    rw [h0, h0, div_left_inj' hp.ne'] at he
    exact hik (Fin.ext (by exact_mod_cast he))) [slhd n 2 coin σ] (by simp) (by simp)
  refine ⟨[(coin, σ)], slhd n 2 coin σ, hX, fun rnd' h' => ?_⟩
  obtain ⟨hm, _⟩ := (C45_select _ _ _).1 _ h'
  obtain ⟨g, hg, he⟩ := List.mem_map.mp hm
  obtain ⟨r, _, rfl⟩ := List.mem_map.mp hg
  rw [mapDesign_unit] at he
  have := congrFun (congrFun he ⟨0, by omega⟩) 0
  rw [C124_sorted hn r.1 r.2 _ 0 rfl, Equiv.swap_apply_left, h1, h0] at this
  norm_num at this

/-! ## DYCORS: the column that is perturbed if the mask is empty -/

/-- `candidate_dycors` draws the forced column with `randint(0, d - 1)`, so that it is never the last one.  As long as the
perturbation probability is positive, the renumbered candidates are nevertheless possible: there are draws in their ranges with
the renumbered result. -/
theorem C123_dycors_partial (π : Equiv.Perm (Fin d)) (p : OptProb d) (hd : 1 < d) (pred : Pt d → ℝ)
    (X : Fin (n + 1) → Pt d) (ws : List ℝ) (prob : ℝ) (hprob : 0 < prob) (Xpend : List (Pt d)) (radius dtol : ℝ) (xbest : Pt d)
    (u : Fin (m + 1) → ℕ → ℝ) (hu : ∀ j c, 0 ≤ u j c ∧ u j c < 1) (forced : Fin (m + 1) → ℕ) (hfo : ∀ j, forced j < d - 1)
    (z : Fin (m + 1) → Pt d) :
    ∃ (u' : Fin (m + 1) → ℕ → ℝ) (forced' : Fin (m + 1) → ℕ), (∀ j c, 0 ≤ u' j c ∧ u' j c < 1) ∧ (∀ j, forced' j < d - 1) ∧
      candidateDycors (p.renum π) pred (fun i => renum π (X i)) ws prob (Xpend.map (renum π)) radius (List.finRange d)
        dtol (renum π xbest) u' forced' (fun j => renum π (z j)) =
      (candidateDycors p (fun x => pred (renum π x)) X ws prob Xpend radius (List.finRange d) dtol xbest u forced z).map
        (List.map fun x i => x (π i)) := by
  classical
  -- an empty mask is replaced by one that contains just the forced column
  let u' : Fin (m + 1) → ℕ → ℝ := fun j c =>
    if (∀ c < d, ¬ u j c < prob) ∧ c = renumIdx π (forced j) then 0 else renumCol π (u j) c
  have hcol : ∀ j c, 0 ≤ renumCol π (u j) c ∧ renumCol π (u j) c < 1 := by
    intro j c
    unfold renumCol
    split_ifs
    · exact hu j _
    · exact hu j _
  have hmask : ∀ j (i : Fin d), dycorsMask d prob (u' j) 0 i = dycorsMask d prob (renumCol π (u j)) (renumIdx π (forced j)) i := by
    intro j i
    have hcol' : ∀ i : Fin d, renumCol π (u j) i = u j (π i) := fun i => by simp [renumCol]
    have hlt : renumIdx π (forced j) < d := by
      unfold renumIdx
      rw [dif_pos (by have := hfo j; omega)]
      exact Fin.is_lt _
    have hd1 : ¬ d = 1 := by omega
    unfold dycorsMask
    rw [if_neg hd1, if_neg hd1]
    by_cases he : ∀ c < d, ¬ u j c < prob
    · have he' : ∀ c < d, ¬ renumCol π (u j) c < prob := by
        intro c hc
        have := he (π ⟨c, hc⟩) (Fin.is_lt _)
        rwa [← hcol'] at this
      have hne : ¬ ∀ c < d, ¬ u' j c < prob := by
        intro h
        apply h _ hlt
        have : u' j (renumIdx π (forced j)) = 0 := if_pos ⟨he, rfl⟩
        rw [this]
        exact hprob
      rw [if_neg hne, if_pos he']
      rw [Bool.eq_iff_iff]
      simp only [decide_eq_true_eq, Bool.or_eq_true]
      by_cases hi : (i : ℕ) = renumIdx π (forced j)
      · have : u' j i = 0 := if_pos ⟨he, hi⟩
        rw [this]
        exact ⟨fun _ => .inr hi, fun _ => hprob⟩
      · have : u' j i = renumCol π (u j) i := if_neg fun h => hi h.2
        rw [this]
        exact ⟨.inl, fun h => h.resolve_right hi⟩
    · have hu' : u' j = renumCol π (u j) := by
        funext c
        simp only [u']
        rw [if_neg (fun h => he h.1)]
      have he' : ¬ ∀ c < d, ¬ renumCol π (u j) c < prob := by
        intro h
        apply he
        intro c hc
        have := h (π.symm ⟨c, hc⟩) (Fin.is_lt _)
        rw [hcol'] at this
        simpa using this
      rw [hu', if_neg he', if_neg he']
  have hd0 : 0 < d - 1 := by omega
  refine ⟨u', fun _ => 0, fun j c => ?_, fun _ => hd0, ?_⟩
  · simp only [u']
    split_ifs
    · exact ⟨le_rfl, one_pos⟩
    · exact hcol j c
  · rw [show (List.map fun x i => x (π i) : List (Pt d) → List (Pt d)) = List.map (renum π) from rfl,
      ← dycors_renum π p pred X ws prob Xpend radius dtol xbest u forced z]
    unfold candidateDycors
    simp only [dycorsCand_full, List.length_finRange, hmask]

/-- If no uniform draw is below the perturbation probability (always so if it is zero or NaN, which happens, C25_refuted), then
no candidate differs from the best point in the last variable (continuous). -/
theorem C123_dycors_last_refuted (p : OptProb d) (hp : p.intVar = []) (hd : 1 < d) (pred : Pt d → ℝ) (X : Fin (n + 1) → Pt d)
    (ws : List ℝ) (prob : ℝ) (Xpend : List (Pt d)) (radius dtol : ℝ) (xbest : Pt d) (u : Fin (m + 1) → ℕ → ℝ)
    (hu : ∀ j c, ¬ u j c < prob) (forced : Fin (m + 1) → ℕ) (hfo : ∀ j, forced j < d - 1) (z : Fin (m + 1) → Pt d)
    (l : Fin d) (hl : l.1 = d - 1) :
    ∃ res, candidateDycors p pred X ws prob Xpend radius (List.finRange d) dtol xbest u forced z = some res ∧
      ∀ x ∈ res, x l = xbest l := by
  unfold candidateDycors
  simp only [dycorsCand_full, List.length_finRange, Option.isSome_some, implies_true, dite_true, Option.get_some, hp, roundVars_nil]
  refine ⟨_, rfl, fun x hx => ?_⟩
  unfold weightedDistanceMerit at hx
  obtain ⟨j, _, rfl⟩ := List.mem_map.mp hx
  have hm : dycorsMask d prob (u j) (forced j) l = false := by
    have hd1 : ¬ d = 1 := by omega
    unfold dycorsMask
    rw [if_neg hd1, if_pos fun c _ => hu j c]
    have := hfo j
    simp only [hu j l, decide_false, Bool.false_or, decide_eq_false_iff_not]
    omega
  beta_reduce
  rw [hm]
  simp

/-- So the possible candidates depend on the numbering of the variables if the perturbation probability is zero: in the unit
square, around the center, a candidate in which the first variable is changed is selected; with the variables exchanged there
are no draws for which the same candidate, with its variables exchanged, is selected. -/
theorem C123_dycors_refuted :
    ∃ (z : Fin 1 → Pt 2) (u : Fin 1 → ℕ → ℝ) (x : Pt 2), (∀ j c, 0 ≤ u j c ∧ u j c < 1) ∧
      (∀ j i, DrawOk ⟨![0, 0], ![1, 1], []⟩ ![1 / 2, 1 / 2] (scalefactors ⟨![0, 0], ![1, 1], []⟩ (1 / 5) (List.finRange 2)) i (z j i)) ∧
      candidateDycors ⟨![0, 0], ![1, 1], []⟩ (fun _ => 0) (fun _ : Fin 1 => ![1 / 2, 1 / 2]) [1] 0 [] (1 / 5)
        (List.finRange 2) 1e-3 ![1 / 2, 1 / 2] u (fun _ => 0) z = some [x] ∧
      ∀ (m : ℕ) (z' : Fin (m + 1) → Pt 2) (u' : Fin (m + 1) → ℕ → ℝ) (forced' : Fin (m + 1) → ℕ) (pred : Pt 2 → ℝ),
        (∀ j c, 0 ≤ u' j c ∧ u' j c < 1) → (∀ j, forced' j < 2 - 1) →
        candidateDycors ⟨![0, 0], ![1, 1], []⟩ pred (fun _ : Fin 1 => ![1 / 2, 1 / 2]) [1] 0 [] (1 / 5)
          (List.finRange 2) 1e-3 ![1 / 2, 1 / 2] u' forced' z' ≠ some [fun i => x (Equiv.swap 0 1 i)] := by
  refine ⟨fun _ => ![1, 1], fun _ _ => 0, ![7 / 10, 1 / 2], by norm_num, ?_, ?_, ?_⟩
  · intro j i
    fin_cases i <;> norm_num [DrawOk, scalefactors]
  · unfold candidateDycors
    simp only [dycorsCand_full, List.length_finRange, Option.isSome_some, implies_true, dite_true, Option.get_some, roundVars_nil]
    congr 1
    have hs : ∀ (pred : Pt 2 → ℝ) (X : Fin 1 → Pt 2) (c : Fin 1 → Pt 2), weightedDistanceMerit pred X [] c [1] 1e-3 = [c 0] := by
      intro pred X c
      simp only [weightedDistanceMerit, wdmIdx, wdmLoop, List.map_cons, List.map_nil]
      congr 2
    rw [hs]
    congr 1
    funext i
    fin_cases i <;> norm_num [dycorsMask, truncnorm, scalefactors]
  · intro m z' u' forced' pred hu' hf' he
    obtain ⟨res, h1, h2⟩ := C123_dycors_last_refuted ⟨![0, 0], ![1, 1], []⟩ rfl (by norm_num) pred (fun _ : Fin 1 => ![1 / 2, 1 / 2])
      [1] 0 [] (1 / 5) 1e-3 ![1 / 2, 1 / 2] u' (fun j c => not_lt.mpr (hu' j c).1) forced' hf' z' 1 rfl
    rw [h1] at he
    cases he
    have := h2 _ (List.mem_singleton.mpr rfl)
    norm_num at this

/-! ## The surrogates -/

/-- The columns `1, x_1, ..., x_d` after renumbering. -/
def linPerm (π : Equiv.Perm (Fin d)) : Equiv.Perm (Fin (1 + d)) :=
  (finSumFinEquiv (m := 1) (n := d)).symm.trans ((Equiv.sumCongr (Equiv.refl (Fin 1)) π).trans finSumFinEquiv)

theorem linPerm_eval (π : Equiv.Perm (Fin d)) (y : Pt d) (k : Fin (1 + d)) :
    (Surrogate.linearTail d).eval (renum π y) k = (Surrogate.linearTail d).eval y (linPerm π k) := by
  obtain ⟨s, rfl⟩ := (finSumFinEquiv (m := 1) (n := d)).surjective k
  have hk : linPerm π (finSumFinEquiv s) = finSumFinEquiv (Equiv.sumCongr (Equiv.refl (Fin 1)) π s) := by simp [linPerm]
  rw [hk]
  cases s with
  | inl a => simp [Surrogate.linearTail]
  | inr a => simp [Surrogate.linearTail, renum]

/-- The columns of the tail after renumbering. -/
theorem tail_renum (π : Equiv.Perm (Fin d)) {tail : Surrogate.Tail d}
    (hT : tail = Surrogate.constantTail d ∨ tail = Surrogate.linearTail d) :
    ∃ κ : Equiv.Perm (Fin tail.dimTail), ∀ (y : Pt d) (k : Fin tail.dimTail), tail.eval (renum π y) k = tail.eval y (κ k) := by
  rcases hT with rfl | rfl
  · exact ⟨1, fun _ _ => rfl⟩
  · exact ⟨linPerm π, linPerm_eval π⟩

theorem coef_renum (π : Equiv.Perm (Fin d)) (p : Surrogate.Par d) (κ : Equiv.Perm (Fin p.tail.dimTail))
    (hκ : ∀ (y : Pt d) (k : Fin p.tail.dimTail), p.tail.eval (renum π y) k = p.tail.eval y (κ k)) (D : List (Pt d × ℝ))
    {v lam b : ℕ → ℝ} (h : Surrogate.Coef p D v lam b) :
    let p' : Surrogate.Par d := { p with lb := renum π p.lb, ub := renum π p.ub }
    let b' : ℕ → ℝ := fun k => if hk : k < p.tail.dimTail then b (κ ⟨k, hk⟩) else 0
    Surrogate.Coef p' (renumData π D) v lam b' ∧
      ∀ y, Surrogate.kernelPart p' (renumData π D) lam (renum π y) + Surrogate.tailPart p' b' (renum π y) =
        Surrogate.kernelPart p D lam y + Surrogate.tailPart p b y := by
  intro p' b'
  have hlen : (renumData π D).length = D.length := by simp [renumData]
  let e : Fin D.length ≃ Fin (renumData π D).length := (finCongr hlen).symm
  have hget : ∀ i : Fin D.length, toUnitBox (renumData π D)[e i].1 p'.lb p'.ub = renum π (toUnitBox D[i].1 p.lb p.ub) := by
    intro i
    have : (renumData π D)[e i].1 = renum π D[i].1 := by
      simp only [renumData, Fin.getElem_fin, List.getElem_map]
      rfl
    rw [this]; rfl
  have htail : ∀ y, Surrogate.tailPart p' b' (renum π y) = Surrogate.tailPart p b y := by
    intro y
    unfold Surrogate.tailPart
    rw [Finset.sum_range, Finset.sum_range]
    refine Eq.trans (Finset.sum_congr rfl fun k _ => ?_)
      (Equiv.sum_comp κ fun k : Fin p.tail.dimTail => p.tail.eval y k * b k)
    show p.tail.eval (renum π y) k * b' k = _
    rw [hκ]
    rw [show b' k = b (κ k) from dif_pos k.2]
  have hker : ∀ y, Surrogate.kernelPart p' (renumData π D) lam (renum π y) = Surrogate.kernelPart p D lam y := by
    intro y
    unfold Surrogate.kernelPart
    rw [← Equiv.sum_comp e]
    refine Finset.sum_congr rfl fun i _ => ?_
    rw [hget, eucl_renum]
    rfl
  refine ⟨⟨fun k hk => ?_, fun i => ?_⟩, fun y => by rw [hker, htail]⟩
  · rw [← Equiv.sum_comp e]
    have := h.orth (κ ⟨k, hk⟩) (Fin.is_lt _)
    refine Eq.trans (Finset.sum_congr rfl fun i _ => ?_) this
    rw [hget]
    show lam i * p.tail.eval (renum π _) k = _
    rw [hκ _ ⟨k, hk⟩]
  · obtain ⟨i, rfl⟩ := e.surjective i
    rw [hget, hker, htail]
    exact h.fits i

/-- RBF interpolants (every kernel, constant or linear tail, every output transformation): with renumbered bounds and data the
prediction at the renumbered point is the same, or both raise an exception. -/
theorem C123_rbf (π : Equiv.Perm (Fin d)) (p : Surrogate.Par d) (hlu : Surrogate.LuSpec p.lu) (hchol : Surrogate.CholSpec p.chol)
    (hT : p.tail = Surrogate.constantTail d ∨ p.tail = Surrogate.linearTail d) (D : List (Pt d × ℝ)) :
    (rbfSurr p).RenumAt π (rbfSurr { p with lb := fun i => p.lb (π i), ub := fun i => p.ub (π i) }) D := by
  obtain ⟨κ, hκ⟩ := tail_renum π hT
  set p' : Surrogate.Par d := { p with lb := fun i => p.lb (π i), ub := fun i => p.ub (π i) } with hp'
  have hlu' : Surrogate.LuSpec p'.lu := hlu
  have hchol' : Surrogate.CholSpec p'.chol := hchol
  have hvals : (renumData π D).map Prod.snd = D.map Prod.snd := by simp [renumData, List.map_map, Function.comp_def]
  have key1 : ∀ (π : Equiv.Perm (Fin d)) (p : Surrogate.Par d) (hlu : Surrogate.LuSpec p.lu) (hchol : Surrogate.CholSpec p.chol)
      (hT : p.tail = Surrogate.constantTail d ∨ p.tail = Surrogate.linearTail d) (D : List (Pt d × ℝ)) (x : Pt d),
      (Surrogate.predict p (Surrogate.rrun p (scratch D)) x).2 = none →
      (Surrogate.predict { p with lb := renum π p.lb, ub := renum π p.ub }
        (Surrogate.rrun { p with lb := renum π p.lb, ub := renum π p.ub } (scratch (renumData π D))) (renum π x)).2 = none := by
    intro π p hlu hchol hT D x h
    obtain ⟨κ, hκ⟩ := tail_renum π hT
    rw [Surrogate.predict_none_coef p hlu hchol _ (scratch_ok _) (scratch_noFail _ _)] at h
    rw [Surrogate.predict_none_coef { p with lb := renum π p.lb, ub := renum π p.ub } hlu hchol _ (scratch_ok _) (scratch_noFail _ _)]
    rw [scratch_data] at h ⊢
    obtain ⟨lam, b, hc, hne⟩ := h
    refine ⟨lam, _, (coef_renum π p κ hκ D hc).1, ?_⟩
    rcases hne with ⟨i, hi, hne⟩ | ⟨k, hk, hne⟩
    · exact .inl ⟨i, by simpa [renumData] using hi, hne⟩
    · refine .inr ⟨κ.symm ⟨k, hk⟩, (κ.symm ⟨k, hk⟩).2, ?_⟩
      beta_reduce
      rw [dif_pos (κ.symm ⟨k, hk⟩).2]
      simpa using hne
  have h : ∀ x : Pt d, (Surrogate.predict p' (Surrogate.rrun p' (scratch (renumData π D))) (renum π x)).2 =
      (Surrogate.predict p (Surrogate.rrun p (scratch D)) x).2 := by
    intro x
    by_cases hn : (Surrogate.predict p (Surrogate.rrun p (scratch D)) x).2 = none
    · rw [hn]; exact key1 π p hlu hchol hT D x hn
    · have hn' : (Surrogate.predict p' (Surrogate.rrun p' (scratch (renumData π D))) (renum π x)).2 ≠ none := by
        intro h'
        apply hn
        have := key1 π⁻¹ p' hlu hchol hT (renumData π D) (renum π x) h'
        have hinv : ∀ y : Pt d, renum π⁻¹ (renum π y) = y := fun y => by funext i; simp [renum]
        have e1 : renumData π⁻¹ (renumData π D) = D := by
          simp only [renumData, List.map_map, Function.comp_def, hinv]
          simp
        have e2 : ({ p' with lb := renum π⁻¹ p'.lb, ub := renum π⁻¹ p'.ub } : Surrogate.Par d) = p := by
          have a : renum π⁻¹ p'.lb = p.lb := hinv p.lb
          have b : renum π⁻¹ p'.ub = p.ub := hinv p.ub
          rw [a, b]
        rw [e1, e2, hinv] at this
        exact this
      obtain ⟨lam, b, hc⟩ := Surrogate.exists_coef p hlu hchol _ (scratch_ok _) ⟨x, hn⟩
      have e := Surrogate.predict_coef p hlu hchol _ (scratch_ok _) ⟨x, hn⟩ lam b hc x
      rw [scratch_data] at hc e
      obtain ⟨hc', hk⟩ := coef_renum π p κ hκ D hc
      have e' := Surrogate.predict_coef p' hlu' hchol' _ (scratch_ok (renumData π D)) ⟨renum π x, hn'⟩ lam
        (fun k => if hk : k < p.tail.dimTail then b (κ ⟨k, hk⟩) else 0)
        (by rw [scratch_data, hvals]; exact hc') (renum π x)
      rw [scratch_data] at e'
      rw [e, e']
      exact congrArg some (hk (toUnitBox x p.lb p.ub))
  refine ⟨?_, rfl⟩
  simp only [rbfSurr]
  by_cases hn : ∃ x, (Surrogate.predict p (Surrogate.rrun p (scratch D)) x).2 = none
  · obtain ⟨x, hx⟩ := hn
    have hn' : ∃ y, (Surrogate.predict p' (Surrogate.rrun p' (scratch (renumData π D))) y).2 = none :=
      ⟨renum π x, by rw [h]; exact hx⟩
    rw [if_pos hn', if_pos ⟨x, hx⟩]; rfl
  · have hn' : ¬ ∃ y, (Surrogate.predict p' (Surrogate.rrun p' (scratch (renumData π D))) y).2 = none := by
      rintro ⟨y, hy⟩
      obtain ⟨x, rfl⟩ := renum_surjective π y
      exact hn ⟨x, by rw [← h]; exact hy⟩
    rw [if_neg hn, if_neg hn']
    simp only [Option.map_some, h]

/-- The regressor of the default Gaussian process (Surrogate/GP.lean) with hyperparameters chosen by `hyp`. -/
noncomputable def gpReg (hyp : List (Pt d) → List ℝ → Surrogate.Hyper d) (X : List (Pt d)) (y : List ℝ) (u : Pt d) : ℝ × ℝ :=
  (Surrogate.gpMean (hyp X y) (fun i : Fin X.length => X[i]) (fun i => y.getD i 0) u,
    Real.sqrt (Surrogate.gpVar (hyp X y) (fun i : Fin X.length => X[i]) u))

/-- The default Gaussian process, if the length scales chosen for the renumbered data are the renumbered length scales. -/
theorem C123_gp (π : Equiv.Perm (Fin d)) (lb ub : Pt d) (trans : List ℝ → List ℝ)
    (hyp hyp' : List (Pt d) → List ℝ → Surrogate.Hyper d)
    (hh : ∀ X y, hyp' (X.map fun x i => x (π i)) y = ⟨(hyp X y).c, fun i => (hyp X y).len (π i), (hyp X y).noise⟩)
    (D : List (Pt d × ℝ)) :
    (gpSurr lb ub trans (gpReg hyp)).RenumAt π
      (gpSurr (fun i => lb (π i)) (fun i => ub (π i)) trans (gpReg hyp')) D := by
  have hkern : ∀ (θ : Surrogate.Hyper d) (x y : Pt d),
      (⟨θ.c, fun i => θ.len (π i), θ.noise⟩ : Surrogate.Hyper d).kern (renum π x) (renum π y) = θ.kern x y := by
    intro θ x y
    unfold Surrogate.Hyper.kern renum
    rw [Equiv.sum_comp π fun k => ((x k - y k) / θ.len k) ^ 2]
  have hreg : ∀ (X : List (Pt d)) (y : List ℝ) (u : Pt d), gpReg hyp' (X.map (renum π)) y (renum π u) = gpReg hyp X y u := by
    intro X y u
    have hlen : (X.map (renum π)).length = X.length := List.length_map ..
    let e : Fin X.length ≃ Fin (X.map (renum π)).length := (finCongr hlen).symm
    have hX : (fun i => (fun i : Fin (X.map (renum π)).length => (X.map (renum π))[i]) (e i)) = fun i => renum π X[i] := by
      funext i
      simp [e]
    have hy : (fun i => (fun i : Fin (X.map (renum π)).length => y.getD i 0) (e i)) = fun i : Fin X.length => y.getD i 0 := by
      funext i; rfl
    have hcov : Surrogate.gpCov (⟨(hyp X y).c, fun i => (hyp X y).len (π i), (hyp X y).noise⟩ : Surrogate.Hyper d)
        (fun i : Fin X.length => renum π X[i]) = Surrogate.gpCov (hyp X y) fun i : Fin X.length => X[i] := by
      unfold Surrogate.gpCov
      simp only [hkern]
      rfl
    have hvec : Surrogate.gpVec (⟨(hyp X y).c, fun i => (hyp X y).len (π i), (hyp X y).noise⟩ : Surrogate.Hyper d)
        (fun i : Fin X.length => renum π X[i]) (renum π u) = Surrogate.gpVec (hyp X y) (fun i : Fin X.length => X[i]) u := by
      unfold Surrogate.gpVec
      simp only [hkern]
    unfold gpReg
    rw [show hyp' (X.map (renum π)) y = _ from hh X y]
    rw [← Surrogate.gpMean_equiv _ _ _ _ e, ← Surrogate.gpVar_equiv _ _ _ e, hX, hy]
    simp only [Surrogate.gpMean, Surrogate.gpVar, hcov, hvec]
  have h1 : (renumData π D).map Prod.snd = D.map Prod.snd := by simp [renumData, List.map_map, Function.comp_def]
  have h2 : (renumData π D).map (fun e => toUnitBox e.1 (fun i => lb (π i)) (fun i => ub (π i))) =
      (D.map fun e => toUnitBox e.1 lb ub).map (renum π) := by
    simp only [renumData, List.map_map]
    rfl
  have h3 : ∀ x : Pt d, toUnitBox (renum π x) (fun i => lb (π i)) (fun i => ub (π i)) = renum π (toUnitBox x lb ub) := fun _ => rfl
  constructor
  · simp only [gpSurr, h1, h2, h3, hreg, Option.map_some]
  · simp only [gpSurr, h1, h2, h3, hreg, Option.map_some]

/-! ## Cases that meet the hypotheses -/

theorem meanSurr_renum (π : Equiv.Perm (Fin d)) (D : List (Pt d × ℝ)) : meanSurr.RenumAt π meanSurr D := by
  have h : (renumData π D).map Prod.snd = D.map Prod.snd := by simp [renumData, List.map_map, Function.comp_def]
  by_cases hD : D = []
  · subst hD; exact ⟨by simp [meanSurr, renumData], by simp [meanSurr, renumData]⟩
  have hD' : renumData π D ≠ [] := by simpa [renumData] using hD
  exact ⟨by simp only [meanSurr, if_neg hD, if_neg hD', h, Option.map_some],
    by simp only [meanSurr, if_neg hD, if_neg hD', h, Option.map_some]⟩

noncomputable def areaProb : OptProb 2 := { lb := ![0, 0], ub := ![1, 1], intVar := [] }

noncomputable def quarterRun : GARun 2 0 := { unit := fun _ => ![1 / 4, 3 / 4], gens := [] }

theorem quarterRun_best {α : Type} [LinearOrder α] (f : Pt 2 → α) :
    (optimize areaProb.ga f quarterRun.unit quarterRun.gens).best = ![1 / 4, 3 / 4] := by
  have h : ∀ k, initialRound areaProb.ga (initialPop areaProb.ga quarterRun.unit k) = ![1 / 4, 3 / 4] := by
    intro k; funext i
    fin_cases i <;> simp [initialRound, initialPop, areaProb, quarterRun, OptProb.ga]
  exact h _

noncomputable def quarterRnd : Rnd 2 where
  design := [![0, 1], ![1, 0]]
  m := 0
  draws := fun _ _ => 0
  u := fun _ _ => 0
  forced := fun _ => 0
  h := 0
  runs := [quarterRun]

def areaCfg : Config (Pt 2) where
  asynchronous := true
  batchSize := 1
  maxEvals := 10
  useRestarts := false
  numPts := 2
  extras := []
  srbf := none

noncomputable def areaEvs : List (Ev 2) := [.propose quarterRnd, .accept 0, .complete 0]

theorem eucl_two (x y : Pt 2) : eucl x y = Real.sqrt ((x 0 - y 0) ^ 2 + (x 1 - y 1) ^ 2) := by
  simp only [eucl, Fin.sum_univ_two]

/-- A run of LCB in the unit square, with two evaluated design points and a generated one. -/
theorem area_demo : ∃ w, loopRun ⟨areaProb, areaCfg, .lcb 2 (some 0) 0.1⟩ meanSurr (fun x => if x 0 = 0 then 0 else 1)
      [![0, 1], ![1, 0]] (areaEvs ++ areaEvs ++ [.propose quarterRnd]) = some w ∧
    w.inflight = [![1 / 4, 3 / 4]] ∧ completions w.st.log = [(![1, 0], 1), (![0, 1], 0)] := by
  set L : Setup 2 := ⟨areaProb, areaCfg, .lcb 2 (some 0) 0.1⟩ with hL
  set f : Pt 2 → Val := fun x => if x 0 = 0 then 0 else 1 with hf
  have i0 : Idle areaCfg (Sys.create areaCfg (oracleOf L [![0, 1], ![1, 0]] none)) ([![0, 1]] ++ [![1, 0]]) [] := by
    constructor <;> simp [Sys.create, create_eq, State.blank, unknownExtras, known, areaCfg]
    all_goals rfl
  obtain ⟨w1, e1, i1⟩ := Idle.turn (L := L) (S := meanSurr) (f := f) quarterRnd (by norm_num [hL, areaCfg]) i0
  obtain ⟨w2, e2, i2⟩ := Idle.turn (L := L) (S := meanSurr) (f := f) (q := []) (x := ![0, 1]) quarterRnd
    (by norm_num [hL, areaCfg]) i1
  simp only [hf] at i2
  norm_num at i2
  have hw : wantsPoints areaCfg w2.st :=
    ⟨i2.term, by rw [i2.num, i2.pend]; norm_num [areaCfg], i2.conv, i2.queue, .inl rfl⟩
  have hgen : gen L meanSurr w2.st (wanted L.cfg) quarterRnd = some (some [![1 / 4, 3 / 4]]) := by
    unfold gen
    rw [i2.curX]
    simp only [List.map_cons, List.map_nil]
    rw [dif_pos ⟨by rw [i2.curFX]; rfl, by rw [i2.fX]; simp⟩]
    have hs : surrData w2.st = [(![1, 0], 1), (![0, 1], 0)] := by
      simp [surrData, i2.surr, hL, areaCfg, known]
    have hmean : Surrogate.mean [(1 : ℝ), 0] = 1 / 2 := by norm_num [Surrogate.mean]
    have hstd : stdDev [(1 : ℝ), 0] = 1 / 2 := by
      norm_num [stdDev, Surrogate.mean]
      rw [show (4 : ℝ) = 2 ^ 2 by norm_num, Real.sqrt_sq (by norm_num)]; norm_num
    simp only [genWith, hL, hs, meanSurr, List.map_cons, List.map_nil, hmean, hstd, reduceCtorEq, if_false, i2.xpend,
      Option.some.injEq]
    refine lcbGaLoop_one (quarterRun_best _) ?_
    have hr : roundVars (![1 / 4, 3 / 4] : Pt 2) areaProb.intVar areaProb.lb areaProb.ub = ![1 / 4, 3 / 4] := by
      simp [roundVars, areaProb]
    rw [hr]
    have hfar : Separated 0.1 (![1 / 4, 3 / 4] : Pt 2) [![1, 0], ![0, 1]] := by
      intro y hy
      simp only [List.mem_cons, List.not_mem_nil, or_false] at hy
      rcases hy with rfl | rfl
      · rw [eucl_two]
        refine Real.le_sqrt_of_sq_le ?_
        norm_num
      · rw [eucl_two]
        refine Real.le_sqrt_of_sq_le ?_
        norm_num
    change lcbMerit (fun _ => (1 / 2 : ℝ)) (fun _ => 1 / 2) 2 (![1, 0]) [![0, 1]] 0.1 (![1 / 4, 3 / 4] : Pt 2) ≤ _
    unfold lcbMerit
    rw [minDist_eq, if_neg (fun hc => absurd ((le_nearestDist_iff (by simp) _).mpr hfar) (not_le.mpr hc.2))]
    rw [WithTop.coe_le_coe, tolOf, i2.fX]
    norm_num [lowest, hL, areaCfg, known]
  have : ∃ s, w2.st.proposeAction areaCfg (oracleOf L quarterRnd.design (some [![1 / 4, 3 / 4]])) =
      some (.eval (![1 / 4, 3 / 4]) .adapt, s) ∧ completions s.log = completions w2.st.log := by
    rw [proposeAction_going i2.term (by rw [i2.num, i2.pend]; norm_num [areaCfg])]
    simp only [i2.conv, Bool.false_eq_true, if_false, i2.queue, List.isEmpty_nil, if_true, State.adaptBranch,
      areaCfg, State.generateEvals, oracleOf, Option.isNone_some, State.afterGenerate, Bool.and_false,
      State.adaptProposal, popLast]
    refine ⟨_, rfl, ?_⟩
    simp [State.makeProposal, completions]
  obtain ⟨s, h1, h2⟩ := this
  have h3 : loopStep L meanSurr f w2 (.propose quarterRnd) = some ⟨s.note (.proposed (![1 / 4, 3 / 4]) .adapt),
      w2.props ++ [{ x := ![1 / 4, 3 / 4], kind := .adapt }], w2.recs⟩ := by
    simp only [loopStep, answer]
    rw [if_pos (show wantsPoints L.cfg w2.st from hw), hgen]
    simp only [Option.bind_some, Sys.step]
    rw [show w2.st.proposeAction L.cfg (oracleOf L quarterRnd.design (some [![1 / 4, 3 / 4]])) = _ from h1]
  refine ⟨⟨s.note (.proposed (![1 / 4, 3 / 4]) .adapt), w2.props ++ [{ x := ![1 / 4, 3 / 4], kind := .adapt }], w2.recs⟩, ?_, ?_, ?_⟩
  · unfold loopRun
    rw [loopSteps_append, loopSteps_append, show loopSteps L meanSurr f (Sys.create L.cfg (oracleOf L [![0, 1], ![1, 0]] none)) areaEvs = some w1 from e1]
    simp only [Option.bind_some, show loopSteps L meanSurr f w1 areaEvs = some w2 from e2, loopSteps, h3]
  · simp [Sys.inflight, i2.props, i2.recs]
  · simp only [State.note, completions_append, h2, i2.log]
    simp [completions]

/-- The run of `area_demo` with its variables exchanged. -/
example : ∃ w, loopRun (Setup.renum (Equiv.swap 0 1) ⟨areaProb, areaCfg, .lcb 2 (some 0) 0.1⟩) meanSurr
      (fun y => if y 1 = 0 then 0 else 1) ([![0, 1], ![1, 0]].map fun x i => x (Equiv.swap 0 1 i))
      ((areaEvs ++ areaEvs ++ [Ev.propose quarterRnd]).map (Ev.renum (Equiv.swap 0 1))) = some w ∧
    w.inflight = [![3 / 4, 1 / 4]] ∧ completions w.st.log = [(![0, 1], 1), (![1, 0], 0)] := by
  obtain ⟨w, h1, h2, h3⟩ := area_demo
  obtain ⟨w', h', hs⟩ := (C123_run_partial (Equiv.swap 0 1) _ meanSurr meanSurr _ (fun y => if y 1 = 0 then 0 else 1)
    (fun x => by simp) _ _ (fun _ w' _ _ => meanSurr_renum _ _)).2 w h1
  have e : ∀ a b : ℝ, (fun i => (![a, b] : Pt 2) (Equiv.swap 0 1 i)) = ![b, a] := by
    intro a b; funext i; fin_cases i <;> simp
  refine ⟨w', h', hs.inflight.trans ?_, hs.completions.trans ?_⟩
  · rw [h2]; simp only [List.map_cons, List.map_nil, e]
  · rw [h3]; simp only [List.map_cons, List.map_nil, e]

/-- A design in two variables, one of them an integer variable, which meets the hypothesis of `C123_design_partial`. -/
example : DesignOf (d := 2) ⟨![0, 0], ![1, 4], [1]⟩ 4 (twoFactorialPoints 2 (some (![0, 0], ![1, 4])) [1]) :=
  .inr (.inr ⟨rfl, rfl⟩)

/-- Draws that meet the hypotheses of `C123_dycors_partial` and, with probability zero, of `C123_dycors_last_refuted`. -/
example : (0 : ℝ) < 1 / 2 ∧ (∀ (j : Fin 1) (c : ℕ), (0 : ℝ) ≤ (fun _ _ => 3 / 4 : Fin 1 → ℕ → ℝ) j c ∧
      (fun _ _ => 3 / 4 : Fin 1 → ℕ → ℝ) j c < 1) ∧ (∀ j : Fin 1, (fun _ => 0 : Fin 1 → ℕ) j < 2 - 1) ∧
    ∀ (j : Fin 1) (c : ℕ), ¬ (fun _ _ => 3 / 4 : Fin 1 → ℕ → ℝ) j c < 0 := by norm_num

/-- Length scales that meet the hypothesis of `C123_gp`: each length scale is the range of the data in its variable. -/
example (π : Equiv.Perm (Fin 2)) : ∃ hyp : List (Pt 2) → List ℝ → Surrogate.Hyper 2,
    (∀ X y, hyp (X.map fun x i => x (π i)) y = ⟨(hyp X y).c, fun i => (hyp X y).len (π i), (hyp X y).noise⟩) ∧
    (hyp [![0, 3], ![1, 5]] []).len 0 ≠ (hyp [![0, 3], ![1, 5]] []).len 1 :=
  ⟨fun X _ => ⟨1, fun i => (X.map fun x => x i).sum, 0⟩, fun X y => by simp [Function.comp_def], by norm_num⟩

end Verif.Props
