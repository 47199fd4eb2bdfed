import Verif.Utils.GAProofs

/-! # Properties C33–C35: the genetic algorithm -/

namespace Verif.Props

open Verif.Num Verif.Spec Verif.Utils

variable {d h : ℕ} {α : Type} [LinearOrder α]

/-- Every individual ever evaluated, and the returned one, is in the box and integer-feasible; for the initial
populations "SLHD", "LHD" and "Random" (points of the unit cube), all objectives, all draws, any number of
generations. -/
theorem C33_feasible (cfg : GAConfig d) (hle : ∀ i, cfg.lb i ≤ cfg.ub i) (hl : IntegerOn cfg.intVar cfg.lb)
    (hu : IntegerOn cfg.intVar cfg.ub) (f : Pt d → α) (unit : Pop d h)
    (hunit : ∀ k, InBox (fun _ => 0) (fun _ => 1) (unit k)) (rs : List (Draws d h)) :
    (∀ x ∈ (optimize cfg f unit rs).evaluated, InBox cfg.lb cfg.ub x ∧ IntegerOn cfg.intVar x) ∧
    InBox cfg.lb cfg.ub (optimize cfg f unit rs).best ∧ IntegerOn cfg.intVar (optimize cfg f unit rs).best := by
  have ok : cfg.Ok := ⟨hle, hl, hu⟩
  have hb := optimizeFrom_box ok f (initialPop_inBox (unit := unit) ok hunit) rs
  exact ⟨hb.feasible, hb.feasible _ (optimizeFrom_elite cfg f (initialPop cfg unit) rs).bestMem⟩

/-- The returned value is the objective at the returned individual, which was evaluated, and no evaluated individual has
a smaller value; for any initial population, objective and draws. -/
theorem C34_elitist (cfg : GAConfig d) (f : Pt d → α) (population : Pop d h) (rs : List (Draws d h)) :
    (optimizeFrom cfg f population rs).bestValue = f (optimizeFrom cfg f population rs).best ∧
    (optimizeFrom cfg f population rs).best ∈ (optimizeFrom cfg f population rs).evaluated ∧
    ∀ x ∈ (optimizeFrom cfg f population rs).evaluated, (optimizeFrom cfg f population rs).bestValue ≤ f x :=
  let e := optimizeFrom_elite cfg f population rs
  ⟨e.bestVal, e.bestMem, e.le⟩

/-- The evaluated individuals are counted completely: one population per generation and the initial one. -/
theorem C34_count (cfg : GAConfig d) (f : Pt d → α) (population : Pop d h) (rs : List (Draws d h)) :
    (optimizeFrom cfg f population rs).evaluated.length = (rs.length + 1) * (2 * (h + 1)) := by
  unfold optimizeFrom
  have h0 : (gaInit cfg f population).evaluated.length = 2 * (h + 1) := by
    simp [gaInit, evaluate, popSize]; omega
  suffices H : ∀ s : GAState d h α, (rs.foldl (generation cfg f) s).evaluated.length =
      s.evaluated.length + rs.length * (2 * (h + 1)) by rw [H, h0]; ring
  intro s
  induction rs generalizing s with
  | nil => simp
  | cons r rs ih =>
    rw [List.foldl_cons, ih]
    have : (generation cfg f s r).evaluated.length = s.evaluated.length + 2 * (h + 1) := by
      simp [generation, evaluate, popSize]; omega
    rw [this, List.length_cons]; ring

/-- A box with one integer variable. -/
noncomputable def demoGA : GAConfig 2 := { lb := ![0, -1], ub := ![3, 1], intVar := [0] }

example : (∀ i, demoGA.lb i ≤ demoGA.ub i) ∧ IntegerOn demoGA.intVar demoGA.lb ∧ IntegerOn demoGA.intVar demoGA.ub ∧
    ∀ k : Fin (popSize 1), InBox (fun _ => 0) (fun _ => 1) ((fun _ _ => 1 / 2 : Pop 2 1) k) := by
  refine ⟨fun i => ?_, fun i hi => ?_, fun i hi => ?_, fun k i => ?_⟩
  · fin_cases i <;> norm_num [demoGA]
  · have : i = 0 := by simpa [demoGA] using hi
    subst this; exact ⟨0, by simp [demoGA]⟩
  · have : i = 0 := by simpa [demoGA] using hi
    subst this; exact ⟨3, by simp [demoGA]⟩
  · norm_num

/-! ## C79: the operators of one generation -/

/-- The initial rounding, for any bounds (also fractional ones) at least 1 apart on the integer variables: the first
population evaluated lies in the box and has integer values, and on each integer variable it differs from the sampled
population by at most 1; the other variables are unchanged. -/
theorem C79_initial (cfg : GAConfig d) (hle : ∀ i, cfg.lb i ≤ cfg.ub i) (hwide : ∀ i ∈ cfg.intVar, cfg.lb i + 1 ≤ cfg.ub i)
    (f : Pt d → α) (unit : Pop d h) (hunit : ∀ k, InBox (fun _ => 0) (fun _ => 1) (unit k)) :
    ∃ E : Pop d h, (optimize cfg f unit []).evaluated = List.ofFn E ∧
      (∀ k, (optimize cfg f unit []).pop k = fun i => cfg.lb i + unit k i * (cfg.ub i - cfg.lb i)) ∧
      ∀ k, InBox cfg.lb cfg.ub (E k) ∧ IntegerOn cfg.intVar (E k) ∧
        ∀ i, (i ∉ cfg.intVar → E k i = (optimize cfg f unit []).pop k i) ∧
          |E k i - (optimize cfg f unit []).pop k i| ≤ 1 := by
  have hin : ∀ k i, cfg.lb i ≤ initialPop cfg unit k i ∧ initialPop cfg unit k i ≤ cfg.ub i := by
    intro k i
    have h1 := hle i
    obtain ⟨h2, h3⟩ := hunit k i
    simp only [initialPop]
    constructor <;> nlinarith
  refine ⟨fun k => initialRound cfg (initialPop cfg unit k), by simp [optimize, optimizeFrom, gaInit, evaluate],
    fun k => rfl, fun k => ?_⟩
  have key := fun i => initialRound_spec cfg hwide (hin k) i
  refine ⟨fun i => (key i).1, fun i hi => (key i).2.1 hi, fun i => (key i).2.2⟩

/-- Individual `p` wins the tournament between the individuals `T`. -/
def WinsTournament {n : ℕ} (vals : Fin n → α) (T : Fin 5 → Fin n) (p : Fin n) : Prop :=
  (∃ t, T t = p) ∧ ∀ t, vals p ≤ vals (T t)

/-- One more generation: the two children of a pair come from the winners of two tournaments of five, in nine of ten
cases averaged with the same random weight; a mutation is a normally distributed step of standard deviation
`0.2 * (ub - lb)` in the coordinates with a draw below `1 / dim` only, followed by projection to the box; the rounded
individuals are evaluated and the first is replaced by the best one known.  For all objectives, draws and histories. -/
theorem C79_generation (cfg : GAConfig d) (hle : ∀ i, cfg.lb i ≤ cfg.ub i) (hl : IntegerOn cfg.intVar cfg.lb)
    (hu : IntegerOn cfg.intVar cfg.ub) (f : Pt d → α) (unit : Pop d h)
    (hunit : ∀ k, InBox (fun _ => 0) (fun _ => 1) (unit k)) (rs : List (Draws d h)) (r : Draws d h) (hr : r.Valid) :
    let s := optimize cfg f unit rs
    let s' := optimize cfg f unit (rs ++ [r])
    ∃ parent child mutant : Pop d h,
      (∀ k, ∃ p, WinsTournament s.vals (r.competitors k) p ∧ parent k = s.pop p) ∧
      (∀ j : Fin (h + 1),
        (r.cross j < 0.9 → ∀ i,
          child (loHalf j) i = r.alpha j * parent (loHalf j) i + (1 - r.alpha j) * parent (hiHalf j) i ∧
          child (hiHalf j) i = r.alpha j * parent (hiHalf j) i + (1 - r.alpha j) * parent (loHalf j) i) ∧
        (0.9 ≤ r.cross j → child (loHalf j) = parent (loHalf j) ∧ child (hiHalf j) = parent (hiHalf j))) ∧
      (∀ k i, (1 / d ≤ r.mutate k i → mutant k i = child k i) ∧
        (r.mutate k i < 1 / d → mutant k i = clip (cfg.lb i) (cfg.ub i) (child k i + 0.2 * (cfg.ub i - cfg.lb i) * r.normal k i))) ∧
      (∀ k, s'.pop k = if cfg.intVar = [] ∧ k = 0 then s.best else mutant k) ∧
      s'.evaluated = s.evaluated ++ List.ofFn fun k =>
        if k = 0 then s.best else roundVars (mutant k) cfg.intVar cfg.lb cfg.ub := by
  intro s s'
  have ok : cfg.Ok := ⟨hle, hl, hu⟩
  have hb : GABox cfg s := optimizeFrom_box ok f (initialPop_inBox (unit := unit) ok hunit) rs
  have hs' : s' = generation cfg f s r := by
    simp only [s', s, optimize, optimizeFrom, List.foldl_append, List.foldl_cons, List.foldl_nil]
  set child := crossover s.pop (winner s.vals r.competitors) r with hchild
  have hlo : ∀ j : Fin (h + 1), (loHalf j : Fin (popSize h)).val < h + 1 := fun j => j.2
  have hhi : ∀ j : Fin (h + 1), ¬ (hiHalf j : Fin (popSize h)).val < h + 1 := fun j => by
    simp only [hiHalf]; omega
  have hc : ∀ k, InBox cfg.lb cfg.ub (child k) := by
    intro k i
    have hP := fun p => hb.popBox p i
    have conv : ∀ (a x y : ℝ), 0 ≤ a → a < 1 → cfg.lb i ≤ x ∧ x ≤ cfg.ub i → cfg.lb i ≤ y ∧ y ≤ cfg.ub i →
        cfg.lb i ≤ a * x + (1 - a) * y ∧ a * x + (1 - a) * y ≤ cfg.ub i := by
      intro a x y h0 h1 hx hy
      constructor <;> nlinarith [hx.1, hx.2, hy.1, hy.2]
    simp only [hchild, crossover]
    split_ifs
    · exact conv _ _ _ (hr _).1 (hr _).2 (hP _) (hP _)
    · exact hP _
    · exact conv _ _ _ (hr _).1 (hr _).2 (hP _) (hP _)
    · exact hP _
  refine ⟨fun k => s.pop (winner s.vals r.competitors k), child, mutation cfg child r, fun k => ?_, fun j => ?_,
    fun k i => ?_, fun k => ?_, ?_⟩
  · exact ⟨_, ⟨⟨_, rfl⟩, fun t => argmin_le (m := 4) (fun t => s.vals (r.competitors k t)) t⟩, rfl⟩
  · have hj : ∀ hh, (⟨(hiHalf j : Fin (popSize h)).val - (h + 1), hh⟩ : Fin (h + 1)) = j := by
      intro hh; apply Fin.ext; simp [hiHalf]
    constructor
    · intro hx i
      constructor
      · simp only [hchild, crossover, dif_pos (hlo j)]
        rw [if_pos (by simpa [loHalf] using hx)]
        rfl
      · simp only [hchild, crossover, dif_neg (hhi j), hj]
        rw [if_pos hx]
    · intro hx
      constructor
      · funext i
        simp only [hchild, crossover, dif_pos (hlo j)]
        rw [if_neg (not_lt.mpr (by simpa [loHalf] using hx))]
        rfl
      · funext i
        simp only [hchild, crossover, dif_neg (hhi j), hj]
        rw [if_neg (not_lt.mpr hx)]
  · constructor
    · intro hx
      have := hc k i
      simp only [mutation]
      rw [if_neg (not_lt.mpr hx), mul_zero, add_zero, max_eq_right this.1, min_eq_right this.2]
    · intro hx
      simp only [mutation]
      rw [if_pos hx, clip, min_comm, max_comm]
      ring_nf
  · rw [hs']
    simp only [generation, evaluate]
    by_cases hv : cfg.intVar = []
    · have hv' : ¬ cfg.intVar.length > 0 := by simp [hv]
      rw [if_neg hv']
      by_cases hk : k = 0
      · rw [if_pos hk, if_pos ⟨hv, hk⟩]
      · rw [if_neg hk, if_neg fun hh => hk hh.2]
        funext i
        rw [roundVars_apply]
        simp only [hv, List.not_mem_nil, if_false]
        rfl
    · have hv' : cfg.intVar.length > 0 := List.length_pos_iff.mpr hv
      rw [if_pos hv', if_neg fun hh => hv hh.1]
  · rw [hs']
    rfl

/-- Fractional bounds of an integer variable, and draws in the range of `np.random.rand`. -/
example : (∀ i, (![1 / 2, 0] : Pt 2) i ≤ (![7 / 3, 1] : Pt 2) i) ∧
    (∀ i ∈ ([0] : List (Fin 2)), (![1 / 2, 0] : Pt 2) i + 1 ≤ (![7 / 3, 1] : Pt 2) i) ∧
    (⟨fun _ _ => 0, fun _ => 1 / 2, fun _ => 1 / 3, fun _ _ => 1, fun _ _ => 1 / 4⟩ : Draws 2 1).Valid := by
  refine ⟨fun i => ?_, fun i hi => ?_, fun k => ?_⟩
  · fin_cases i <;> norm_num
  · have : i = 0 := by simpa using hi
    subst this; norm_num
  · norm_num

/-! ## C35 -/

/-- Full statement: a start population is refused exactly if it leaves the box.  The code does the opposite: in positive
dimension every population inside the box is refused. -/
theorem C35_refuted (cfg : GAConfig (d + 1)) (start : Pop (d + 1) h) (hin : ∀ k, InBox cfg.lb cfg.ub (start k)) :
    startRefused cfg start := .inl ⟨0, fun k => (hin k 0).1⟩

/-- What is accepted: populations that leave the box on both sides in every coordinate. -/
theorem C35_accepted (cfg : GAConfig d) (start : Pop d h) :
    ¬ startRefused cfg start ↔ ∀ i, (∃ k, start k i < cfg.lb i) ∧ (∃ k, start k i > cfg.ub i) := by
  unfold startRefused
  push Not
  constructor
  · rintro ⟨h1, h2⟩ i; exact ⟨h1 i, h2 i⟩
  · intro hh; exact ⟨fun i => (hh i).1, fun i => (hh i).2⟩

example : ¬ startRefused demoGA (fun k _ => if k = 0 then -7 else 7 : Pop 2 1) := by
  rw [C35_accepted]
  intro i
  refine ⟨⟨0, ?_⟩, ⟨1, ?_⟩⟩ <;> fin_cases i <;> norm_num [demoGA]

end Verif.Props
