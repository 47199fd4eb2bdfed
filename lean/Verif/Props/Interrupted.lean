import Verif.Checkpoint.Interrupted

/-!
# C143: a run that is killed and resumed gives the result of the run that is not interrupted

One worker; the experimental design and the auxiliary problem answer by the finished evaluations and the step control
(sampling radius, next weight), as they do with fixed random numbers.  `Killed` are the states of a run whose processes are
killed at any time and resumed from the checkpoint file, `alone` is the run that is never interrupted.
-/

set_option linter.unusedSectionVars false

namespace Verif.Props

open Verif.Strategy Verif.Checkpoint

variable {P : Type} [DecidableEq P] {cfg : Config P} {first : Bool} {F : P → Val}
  {O : List (P × Option Val) → Option Srbf → Oracle P}

/-- Strategies without step control and with a single weight, and all strategies in the initial phase: whatever a killed and
resumed run has evaluated, the uninterrupted run has evaluated the same points in the same order, with the same values. -/
theorem C143_history_partial (hc : cfg.asynchronous = true ∨ cfg.batchSize = 1) {W : World P}
    (h : Killed first cfg F O (Harmless cfg) W) {w : Sys P} (hw : W.proc = some w) :
    ∃ n u, alone cfg F O n = some u ∧ past w = past u ∧ w.st.X = u.st.X ∧ w.st.fX = u.st.fX :=
  ((h.good hc fun _ hd _ => hd).proc w hw).2.agree

/-- The same for the final result: if both runs come to their end, they have evaluated the same points with the same values. -/
theorem C143_result_partial (hc : cfg.asynchronous = true ∨ cfg.batchSize = 1) {W : World P}
    (h : Killed first cfg F O (Harmless cfg) W) {w : Sys P} (hw : W.proc = some w) (he : Ended cfg F O w)
    {n : Nat} {u : Sys P} (hu : alone cfg F O n = some u) (hue : Ended cfg F O u) :
    past w = past u ∧ w.st.X = u.st.X ∧ w.st.fX = u.st.fX := by
  obtain ⟨m, t, ht, hs, het⟩ := ((h.good hc fun _ hd _ => hd).proc w hw).2.ended he
  obtain ⟨e1, e2, e3⟩ := ended_unique ht het hu hue
  refine ⟨(past_bare hs.bare).trans e1, ?_, ?_⟩
  · rw [← e2]
    have : w.st.bare.X = t.st.bare.X := by rw [hs.bare]
    exact this
  · rw [← e3]
    have : w.st.bare.fX = t.st.bare.fX := by rw [hs.bare]
    exact this

theorem Killed.mono {Q R : Sys P → Prop} (hQR : ∀ d, Q d → R d) {W : World P} (h : Killed first cfg F O Q W) :
    Killed first cfg F O R W := by
  induction h with
  | init => exact .init
  | run _ hs ih => exact .run ih hs
  | crash _ hs ih => exact .crash ih hs
  | resume _ hh hs ih => exact .resume ih (fun d hd => hQR d (hh d hd)) hs
  | ev _ hw hs ih => exact .ev ih hw hs

/-- Expected improvement, lower confidence bound: killed and resumed at any time. -/
theorem C143_plain_partial (hc : cfg.asynchronous = true ∨ cfg.batchSize = 1) (hz : cfg.srbf = none) {W : World P}
    (h : Killed first cfg F O (fun _ => True) W) {w : Sys P} (hw : W.proc = some w) (he : Ended cfg F O w)
    {n : Nat} {u : Sys P} (hu : alone cfg F O n = some u) (hue : Ended cfg F O u) :
    past w = past u ∧ w.st.X = u.st.X ∧ w.st.fX = u.st.fX :=
  C143_result_partial hc (Killed.mono (fun d _ => .inr (.inr (by simp [hz]))) h) hw he hu hue

/-- SRBF and DYCORS with one weight: killed and resumed at any time. -/
theorem C143_weight_partial (hc : cfg.asynchronous = true ∨ cfg.batchSize = 1) {sc : SrbfCfg} (hz : cfg.srbf = some sc)
    (h1 : sc.weights.length = 1) {W : World P} (h : Killed first cfg F O (fun _ => True) W) {w : Sys P} (hw : W.proc = some w)
    (he : Ended cfg F O w) {n : Nat} {u : Sys P} (hu : alone cfg F O n = some u) (hue : Ended cfg F O u) :
    past w = past u ∧ w.st.X = u.st.X ∧ w.st.fX = u.st.fX :=
  C143_result_partial hc (Killed.mono (fun d _ => .inr (.inr fun sc' h' => by
    rw [hz] at h'; obtain rfl := Option.some.inj h'; exact h1)) h) hw he hu hue

/-- If the strategy handles a completed evaluation before the snapshot is taken, then all strategies: killed and resumed
at any time. -/
theorem C143_after_partial (hc : cfg.asynchronous = true ∨ cfg.batchSize = 1) {W : World P}
    (h : Killed false cfg F O (fun _ => True) W) {w : Sys P} (hw : W.proc = some w) (he : Ended cfg F O w)
    {n : Nat} {u : Sys P} (hu : alone cfg F O n = some u) (hue : Ended cfg F O u) :
    past w = past u ∧ w.st.X = u.st.X ∧ w.st.fX = u.st.fX := by
  have hg := h.good hc fun d _ hd => .inl (hd rfl)
  obtain ⟨m, t, ht, hs, het⟩ := (hg.proc w hw).2.ended he
  obtain ⟨e1, e2, e3⟩ := ended_unique ht het hu hue
  refine ⟨(past_bare hs.bare).trans e1, ?_, ?_⟩
  · rw [← e2]
    have : w.st.bare.X = t.st.bare.X := by rw [hs.bare]
    exact this
  · rw [← e3]
    have : w.st.bare.fX = t.st.bare.fX := by rw [hs.bare]
    exact this

/-! ## Concrete runs -/

/-- What happens to a run. -/
inductive Act
  | run
  | crash
  | resume
  | ev

/-- A killed run, computed. -/
def go (first : Bool) (cfg : Config P) (F : P → Val) (O : List (P × Option Val) → Option Srbf → Oracle P) (W : World P) :
    List Act → Option (World P)
  | [] => some W
  | a :: as =>
    let op : Option (WOp P) := match a with
      | .run => some (.run (O [] none))
      | .crash => some .crash
      | .resume => some .resume
      | .ev => W.proc.map fun w => .ev (nextOp F O w)
    match op with
    | none => none
    | some op => match W.step first cfg op with
      | some (.ok W') => go first cfg F O W' as
      | _ => none

theorem go_killed {W W' : World P} {as : List Act} (h : Killed first cfg F O (fun _ => True) W)
    (hg : go first cfg F O W as = some W') : Killed first cfg F O (fun _ => True) W' := by
  induction as generalizing W with
  | nil => simp only [go, Option.some.injEq] at hg; rw [← hg]; exact h
  | cons a as ih =>
    simp only [go] at hg
    split at hg
    · simp at hg
    · rename_i op hop
      split at hg
      · rename_i W1 hs
        refine ih ?_ hg
        cases a with
        | run =>
          simp only [Option.some.injEq] at hop
          rw [← hop] at hs; exact .run h hs
        | crash =>
          simp only [Option.some.injEq] at hop
          rw [← hop] at hs; exact .crash h hs
        | resume =>
          simp only [Option.some.injEq] at hop
          rw [← hop] at hs; exact .resume h (fun _ _ => trivial) hs
        | ev =>
          simp only [Option.map_eq_some_iff] at hop
          obtain ⟨w, hw, hop⟩ := hop
          rw [← hop] at hs; exact .ev h hw hs
      · simp at hg

/-- An empty directory. -/
def emptyWorld : World P := { proc := none, disk := none, total := 0, resumes := 0 }

/-- The computed run ends and has evaluated the given points. -/
def endsWith (first : Bool) (cfg : Config ℕ) (F : ℕ → Val) (O : List (ℕ × Option Val) → Option Srbf → Oracle ℕ)
    (as : List Act) (xs : List ℕ) : Bool :=
  match go first cfg F O emptyWorld as with
  | none => false
  | some W => match W.proc with
    | none => false
    | some w => terminates cfg w (nextOp F O w) && decide ((past w).map Prod.fst = xs)

theorem exists_killed {cfg : Config ℕ} {F : ℕ → Val} {O : List (ℕ × Option Val) → Option Srbf → Oracle ℕ} {as : List Act}
    {xs : List ℕ} (h : endsWith first cfg F O as xs = true) :
    ∃ W w, Killed first cfg F O (fun _ => True) W ∧ W.proc = some w ∧ Ended cfg F O w ∧ (past w).map Prod.fst = xs := by
  unfold endsWith at h
  split at h
  · simp at h
  · rename_i W hW
    split at h
    · simp at h
    · rename_i w hw
      simp only [Bool.and_eq_true, decide_eq_true_eq] at h
      exact ⟨W, w, go_killed .init hW, hw, h.1, h.2⟩

/-- The uninterrupted run ends after `n` events and has evaluated the given points. -/
def aloneEnds (cfg : Config ℕ) (F : ℕ → Val) (O : List (ℕ × Option Val) → Option Srbf → Oracle ℕ) (n : ℕ) (xs : List ℕ) : Bool :=
  match alone cfg F O n with
  | none => false
  | some u => terminates cfg u (nextOp F O u) && decide ((past u).map Prod.fst = xs)

theorem exists_alone {cfg : Config ℕ} {F : ℕ → Val} {O : List (ℕ × Option Val) → Option Srbf → Oracle ℕ} {n : ℕ}
    {xs : List ℕ} (h : aloneEnds cfg F O n xs = true) :
    ∃ u, alone cfg F O n = some u ∧ Ended cfg F O u ∧ (past u).map Prod.fst = xs := by
  unfold aloneEnds at h
  split at h
  · simp at h
  · rename_i u hu
    simp only [Bool.and_eq_true, decide_eq_true_eq] at h
    exact ⟨u, hu, h.1, h.2⟩

/-- Two points of the design, then adaptive ones, four evaluations. -/
def killCfg (b : Nat) (z : Option SrbfCfg) : Config ℕ where
  asynchronous := false
  batchSize := b
  maxEvals := 4
  useRestarts := true
  numPts := 2
  extras := []
  srbf := z

/-- The candidate chosen depends on the number of evaluations and on the weight. -/
def killOracle (l : List (ℕ × Option Val)) (z : Option Srbf) : Oracle ℕ where
  design := fun i => i
  pts := fun i => 100 * l.length + 10 * (z.elim 0 Srbf.nextWeight) + i
  giveUp := false

def killF (x : ℕ) : Val := -(x : ℚ)

/-- Killed during the second evaluation, which repeats the first one, and during the last one, which repeats the third. -/
def twoKills : List Act :=
  [.run, .ev, .ev, .ev, .ev, .ev, .crash, .resume] ++ List.replicate 9 .ev ++ [.ev, .crash, .resume] ++ List.replicate 6 .ev

/-- EXAMPLE: without step control the killed run and the uninterrupted run evaluate the points 1, 0, 200 and 300. -/
example : (∃ W w, Killed true (killCfg 1 none) killF killOracle (fun _ => True) W ∧ W.proc = some w ∧
      Ended (killCfg 1 none) killF killOracle w ∧ (past w).map Prod.fst = [1, 0, 200, 300]) ∧
    ∃ u, alone (killCfg 1 none) killF killOracle 12 = some u ∧ Ended (killCfg 1 none) killF killOracle u ∧
      (past u).map Prod.fst = [1, 0, 200, 300] :=
  ⟨exists_killed (as := twoKills) (by decide +kernel), exists_alone (by decide +kernel)⟩

/-- EXAMPLE: the same with one weight. -/
example : (∃ W w, Killed true (killCfg 1 (some ⟨1, [1 / 2]⟩)) killF killOracle (fun _ => True) W ∧ W.proc = some w ∧
      Ended (killCfg 1 (some ⟨1, [1 / 2]⟩)) killF killOracle w ∧ (past w).map Prod.fst = [1, 0, 200, 300]) ∧
    ∃ u, alone (killCfg 1 (some ⟨1, [1 / 2]⟩)) killF killOracle 12 = some u ∧
      Ended (killCfg 1 (some ⟨1, [1 / 2]⟩)) killF killOracle u ∧ (past u).map Prod.fst = [1, 0, 200, 300] :=
  ⟨exists_killed (as := twoKills) (by decide +kernel), exists_alone (by decide +kernel)⟩

/-- EXAMPLE: several weights, but the snapshot is taken after the strategy has handled the evaluation. -/
example : (∃ W w, Killed false (killCfg 1 (some ⟨1, [3 / 10, 5 / 10, 8 / 10, 95 / 100]⟩)) killF killOracle (fun _ => True) W ∧
      W.proc = some w ∧ Ended (killCfg 1 (some ⟨1, [3 / 10, 5 / 10, 8 / 10, 95 / 100]⟩)) killF killOracle w ∧
      (past w).map Prod.fst = [1, 0, 200, 310]) ∧
    ∃ u, alone (killCfg 1 (some ⟨1, [3 / 10, 5 / 10, 8 / 10, 95 / 100]⟩)) killF killOracle 12 = some u ∧
      Ended (killCfg 1 (some ⟨1, [3 / 10, 5 / 10, 8 / 10, 95 / 100]⟩)) killF killOracle u ∧
      (past u).map Prod.fst = [1, 0, 200, 310] :=
  ⟨exists_killed (as := [.run, .ev, .ev, .ev, .ev, .ev, .crash, .resume] ++ List.replicate 6 .ev ++ [.crash, .resume] ++
      List.replicate 3 .ev) (by decide +kernel), exists_alone (by decide +kernel)⟩

/-- SRBF and DYCORS with the usual weights in serial mode: the snapshot is taken before the strategy has handled the evaluation,
`resume` drops the point but keeps the position in the list of weights, so the resumed run goes on with other weights and other
points. -/
theorem C143_weights_refuted : ∃ (cfg : Config ℕ) (F : ℕ → Val) (O : List (ℕ × Option Val) → Option Srbf → Oracle ℕ)
    (W : World ℕ) (w u : Sys ℕ) (n : ℕ), cfg.asynchronous = false ∧ cfg.batchSize = 1 ∧
    cfg.srbf = some ⟨1, [3 / 10, 5 / 10, 8 / 10, 95 / 100]⟩ ∧
    Killed true cfg F O (fun _ => True) W ∧ W.proc = some w ∧ Ended cfg F O w ∧ alone cfg F O n = some u ∧ Ended cfg F O u ∧
    past w ≠ past u ∧ (past w).map Prod.fst = [1, 0, 210, 320] ∧ (past u).map Prod.fst = [1, 0, 200, 310] := by
  obtain ⟨W, w, h1, h2, h3, h4⟩ := exists_killed (first := true) (cfg := killCfg 1 (some ⟨1, [3 / 10, 5 / 10, 8 / 10, 95 / 100]⟩))
    (F := killF) (O := killOracle) (as := twoKills) (xs := [1, 0, 210, 320]) (by decide +kernel)
  obtain ⟨u, g1, g2, g3⟩ := exists_alone (cfg := killCfg 1 (some ⟨1, [3 / 10, 5 / 10, 8 / 10, 95 / 100]⟩))
    (F := killF) (O := killOracle) (n := 12) (xs := [1, 0, 200, 310]) (by decide +kernel)
  refine ⟨_, _, _, W, w, u, 12, rfl, rfl, rfl, h1, h2, h3, g1, g2, fun he => ?_, h4, g3⟩
  rw [he, g3] at h4
  exact absurd h4 (by decide)

/-- Batches of two points and one worker: `resume` drops the first point of the batch, which the uninterrupted run evaluates,
and the resumed run ends with other points. -/
theorem C143_batch_refuted : ∃ (cfg : Config ℕ) (F : ℕ → Val) (O : List (ℕ × Option Val) → Option Srbf → Oracle ℕ)
    (W : World ℕ) (w u : Sys ℕ) (n : ℕ), cfg.asynchronous = false ∧ cfg.batchSize = 2 ∧ cfg.srbf = none ∧
    Killed true cfg F O (fun _ => True) W ∧ W.proc = some w ∧ Ended cfg F O w ∧ alone cfg F O n = some u ∧ Ended cfg F O u ∧
    past w ≠ past u ∧ (past w).map Prod.fst = [1, 0, 200, 301] ∧ (past u).map Prod.fst = [1, 0, 201, 200] := by
  obtain ⟨W, w, h1, h2, h3, h4⟩ := exists_killed (first := true) (cfg := killCfg 2 none)
    (F := killF) (O := killOracle) (as := twoKills) (xs := [1, 0, 200, 301]) (by decide +kernel)
  obtain ⟨u, g1, g2, g3⟩ := exists_alone (cfg := killCfg 2 none)
    (F := killF) (O := killOracle) (n := 12) (xs := [1, 0, 201, 200]) (by decide +kernel)
  refine ⟨_, _, _, W, w, u, 12, rfl, rfl, rfl, h1, h2, h3, g1, g2, fun he => ?_, h4, g3⟩
  rw [he, g3] at h4
  exact absurd h4 (by decide)

end Verif.Props
