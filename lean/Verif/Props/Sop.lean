import Verif.Sop.Round

/-!
# Properties C52–C56, C68: SOP

Vocabulary: `Reach c w` – `w.sys` is the strategy with its outstanding proposals and running records, `w.sop` the memory
of SOP (archive `evals`, `centers`, ranked archive `F`), after any finite sequence of environment events, crashes and
resumes in which no exception was raised; an exception is a step with result `none`.  The specification of the selection is
at the top of `Verif/Sop/Select.lean`, that of a round at the top of `Verif/Sop/Round.lean`.  `c.base.srbf = none` says that
the base strategy has no step control of SRBF.
-/

namespace Verif.Props

open Verif.Num Verif.Utils Verif.Strategy Verif.Spec Verif.Sop

variable {d : ℕ} {c : Cfg d}

/-! ## C68: SOP is a surrogate strategy -/

/-- Every state of SOP is a state of the base strategy, so the properties of histories proved for it hold for SOP. -/
theorem C68_refinement {w : SopSys d} (h : Sop.Reach c w) : Strategy.Reach c.base w.sys := h.base

/-! ## C52 -/

/-- The archive is the list of completed evaluations, in the order of completion. -/
theorem C52_archive (hs : c.base.srbf = none) {w : SopSys d} (h : Sop.Reach c w) :
    w.sop.evals.map (fun r => (r.x, r.fx)) = completions w.sys.st.log ∧
    w.sys.st.numEvals = (w.sop.evals.length : ℤ) := ⟨(h.inv hs).arch, h.count hs⟩

/-- A run with two entries. -/
example : ∃ w : SopSys 1, Sop.Reach (wcfg true 1 1) w ∧ completions w.sys.st.log = [(pt 0, 0), (pt 1, 1)] := by
  obtain ⟨w, hc, hsop, _⟩ := warm true 1 1
  refine ⟨w, hc.reach, ?_⟩
  rw [← (C52_archive rfl hc.reach).1, hsop]
  rfl

/-! ## C53 -/

/-- A call of `propose_action` in which points are generated. -/
structure Generates (c : Cfg d) (w : SopSys d) (o : Oracle (Pt d)) (w' : SopSys d) : Prop where
  reach : Sop.Reach c w
  queue : w.sys.st.batchQueue = []
  going : Going c.base w.sys.st
  ready : c.base.asynchronous = true ∨ w.sys.st.pendingEvals = 0
  step : w.step c (.propose o) = some w'

theorem Generates.gen (hs : c.base.srbf = none) {w w' : SopSys d} {o : Oracle (Pt d)} (h : Generates c w o w') :
    ∃ pts, w.sop.generate c w.sop.evals.length pts = some w'.sop := by
  have hn : w.sys.st.numEvals.toNat = w.sop.evals.length := by have := h.reach.count hs; omega
  rw [← hn]
  cases step_propose hs (h.reach.inv hs).conv h.step with
  | term ht =>
    rcases ht with ht | ht
    · rw [h.going.notTerm] at ht; simp at ht
    · have := h.going.budget; omega
  | queue x q hq hg => rw [h.queue] at hq; simp at hq
  | gen x q z hpts hq hg ha hz => exact ⟨_, hz⟩
  | genNone z hn hq hg ha hz => exact ⟨_, hz⟩
  | wait hq hg ha hp =>
    rcases h.ready with h1 | h1
    · rw [ha] at h1; simp at h1
    · exact absurd h1 hp

/-- After every generation there are exactly `ncenters` centers; at all times there are none or `ncenters`, and each is an
evaluated point with its place in the archive. -/
theorem C53_count (hs : c.base.srbf = none) {w : SopSys d} (h : Sop.Reach c w) :
    (w.sop.centers = [] ∨ w.sop.centers.length = c.ncenters) ∧
    (∀ ce ∈ w.sop.centers, ∃ v, (completions w.sys.st.log)[ce.index]? = some (ce.xc, v)) ∧
    ∀ o w', Generates c w o w' → w'.sop.centers.length = c.ncenters := by
  have hci := h.cinv hs
  refine ⟨hci.len, ?_, ?_⟩
  · intro ce hce
    rw [← (h.inv hs).arch]
    exact hci.at_ ce hce
  · intro o w' hg
    obtain ⟨pts, hz⟩ := hg.gen hs
    exact (generate_cinv hz hci).2

/-- The centers after a generation are those still being processed followed by new ones; the first new one is the best
evaluated point, unless that has tabu status 2 – it is being processed, or it is in the second round on the tabu list.
(The full claim, without the second case, is refuted below.) -/
theorem C53_best_partial (hs : c.base.srbf = none) {w w' : SopSys d} {o : Oracle (Pt d)} (h : Generates c w o w')
    (hf : Fresh w.sop) : ∃ idx, w'.sop.centers.map Center.index =
        (w.sop.centers.filter fun ce => ce.newIndex.isNone).map Center.index ++ idx ∧
      ∀ b, IsBest w.sop b → tabuStatus w.sop b ≠ 2 → idx ≠ [] → idx.head? = some b := by
  obtain ⟨pts, hz⟩ := h.gen hs
  obtain ⟨F, idx, _, _, _, _, g1, _, _, g4⟩ := generate_selected (h.reach.cinv hs) hf hz
  exact ⟨idx, g1, g4⟩

/-- The hypothesis `Fresh` holds in asynchronous runs in which no initial evaluation completes after the adaptive phase has
begun. -/
theorem C53_fresh_async (hs : c.base.srbf = none) (ha : c.base.asynchronous = true) {w : SopSys d} (h : Sop.Reach c w)
    (hn : NoLateInit w.sys.st.log) : Fresh w.sop := h.fresh_async hs ha hn

/-- It also holds at each generation in runs without lost evaluations, synchronous ones with `batch_size = ncenters`
included. -/
theorem C53_fresh_calm (hs : c.base.srbf = none) (hb : c.base.asynchronous = true ∨ c.base.batchSize = c.ncenters)
    {w : SopSys d} (h : Calm c w) {o : Oracle (Pt d)} (hal : Allowed c w (.propose o)) (hq : w.sys.st.batchQueue = [])
    (hg : Going c.base w.sys.st) (ha : c.base.asynchronous = true ∨ w.sys.st.pendingEvals = 0) : Fresh w.sop :=
  (Post.gen h.reach hs (h.inv hs hb) hq ha (hal hq hg ha).1 (hal hq hg ha).2.1).2

/-- A generation with a best point that is taken as the only center. -/
example : ∃ w w' o, Generates (wcfg true 1 1) w o w' ∧ Fresh w.sop ∧ IsBest w.sop 0 ∧ tabuStatus w.sop 0 = 0 ∧
    w'.sop.centers.map Center.index = [0] := by
  obtain ⟨w, h⟩ := idle_start
  obtain ⟨w', hstep, hc, hgen⟩ := h.gen (by simp) (pt 0.5)
  have hs : (wcfg true 1 1).base.srbf = none := rfl
  have hlen : w.sop.evals.length = 2 := by
    have := congrArg List.length h.arch
    simpa [archive] using this
  have hin : w.sys.inflight = [] := by simp [Sys.inflight, h.props, h.recs]
  have hgo : Going (wcfg true 1 1).base w.sys.st := by
    refine ⟨h.term, ?_⟩
    rw [(pending_zero h.calm.reach).mpr hin, h.calm.reach.count hs, hlen]
    simp [wcfg]
  have hbest : IsBest w.sop 0 := by
    refine ⟨by omega, ?_, by simp⟩
    intro i hi
    have hA := h.arch
    have hval : ∀ i, valueAt w.sop i = (((archive w.sop)[i]?).elim 0 Prod.snd) := by
      intro i
      unfold valueAt archive
      rw [List.getElem?_map]
      cases w.sop.evals[i]? <;> rfl
    rw [hA] at hval
    rw [hval 0, hval i]
    rw [hlen] at hi
    interval_cases i <;> simp
  have hnop : ∀ i, ¬ Processing w.sop i := by
    rintro i ⟨ce, hce, hni, _⟩
    exact h.noBusy ce hce hni
  have ht : tabuStatus w.sop 0 = 0 := by
    unfold tabuStatus
    rw [if_neg (hnop 0), h.first]
    rfl
  have hG : Generates (wcfg true 1 1) w (worc (pt 0.5)) w' := ⟨h.calm.reach, h.queue, hgo, Or.inl rfl, hstep⟩
  refine ⟨w, w', _, hG, h.fresh, hbest, ht, ?_⟩
  have hfilter : (w.sop.centers.filter fun ce => ce.newIndex.isNone) = [] := by
    rw [List.filter_eq_nil_iff]
    intro ce hce hne
    exact h.noBusy ce hce (by simpa using hne)
  obtain ⟨idx, h1, h2⟩ := C53_best_partial hs hG h.fresh
  rw [hfilter] at h1
  simp only [List.map_nil, List.nil_append] at h1
  have hl := (C53_count hs h.calm.reach).2.2 _ _ hG
  have hl1 : idx.length = 1 := by
    have := congrArg List.length h1
    rw [List.length_map, hl] at this
    exact this.symm
  obtain ⟨a, rfl⟩ := List.length_eq_one_iff.mp hl1
  have := h2 0 hbest (by rw [ht]; norm_num) (by simp)
  rw [h1]
  simpa using this

/-- The claim fails for a best point in the second round on the tabu list: nothing is being processed, the best point is
entry 0, and the only new center is entry 2. -/
theorem C53_refuted : ∃ w w' x, Sop.Reach (wcfg true 1 1) w ∧ IsBest w.sop 0 ∧ (∀ i, ¬ Processing w.sop i) ∧
    w.step (wcfg true 1 1) (.propose (worc x)) = some w' ∧ w'.sop.centers.map Center.index = [2] := by
  obtain ⟨w, w', x, h1, h2, h3, h4, _, h6, _⟩ := witness_tabu
  exact ⟨w, w', x, h1, h2, h3, h4, h6⟩

/-! ## C54 -/

/-- Bounds of the counters, and the radius. -/
theorem C54_bounds (hs : c.base.srbf = none) {w : SopSys d} (h : Sop.Reach c w) :
    ∀ r ∈ w.sop.evals, r.nfail ≤ 3 ∧ r.ntabu ≤ 5 ∧ r.sigma = 2 / 10 / 2 ^ r.nfail := by
  intro r hr
  obtain ⟨h1, h2, h3⟩ := h.evals_ok hs r hr
  exact ⟨h1, h2, h3⟩

/-- The rule, asynchronous: when the evaluation of a center's point completes, a failure is recorded for the center if the
point is dominated in the archive; all tabu counters advance, and the center becomes tabu if it has more than three
failures. -/
theorem C54_round_async (hs : c.base.srbf = none) (ha : c.base.asynchronous = true) {w w' : SopSys d} (h : Sop.Reach c w)
    {i : ℕ} {v : Val} (hst : w.step c (.complete i v) = some w') {r : Rec (Pt d)} (hr : w.sys.recs[i]? = some r)
    (hk : r.kind = .adapt) {l rest : List (Center d)} {ce : Center d} (hce : w.sop.centers = l ++ ce :: rest)
    (hx : ce.newPoint = some r.x) (hfirst : ∀ a ∈ l, a.newPoint ≠ some r.x) (j : ℕ) (q : SopRec d)
    (hq : (w.sop.evals ++ [SopRec.new r.x v])[j]? = some q) :
    (ce.index ≠ j → w'.sop.evals[j]? = some (aged q)) ∧
    (ce.index = j → Dominated c (w.sop.evals ++ [SopRec.new r.x v]) w.sop.evals.length →
      w'.sop.evals[j]? = some (afterRound 1 True q)) ∧
    (ce.index = j → ¬ Dominated c (w.sop.evals ++ [SopRec.new r.x v]) w.sop.evals.length →
      w'.sop.evals[j]? = some (afterRound 0 True q)) := by
  classical
  obtain ⟨cs, _, h2, _, h4, _⟩ := complete_round hs h hst hr hk
  have hcs := h2 ha l ce rest hce hx hfirst
  have hj := h4 (Or.inl ha) j
  rw [hq, Option.map_some] at hj
  have hf : failures c (w.sop.evals ++ [SopRec.new r.x v]) cs j =
      if ce.index = j ∧ Dominated c (w.sop.evals ++ [SopRec.new r.x v]) w.sop.evals.length then 1 else 0 := by
    rw [hcs]
    unfold failures
    rw [List.countP_cons, List.countP_nil]
    simp
  have hu : (∃ ce' ∈ cs, ce'.index = j) ↔ ce.index = j := by
    rw [hcs]; simp
  rw [hj, hf]
  refine ⟨fun hne => ?_, fun he hd => ?_, fun he hd => ?_⟩
  · rw [if_neg (fun hh => hne hh.1)]
    unfold afterRound
    simp only [Nat.add_zero, pow_zero, div_one]
    rw [if_neg (fun hh => hne (hu.mp hh.1))]
  · rw [if_pos ⟨he, hd⟩, eq_true (hu.mpr he)]
  · rw [if_neg (fun hh => hd hh.2), eq_true (hu.mpr he)]

/-- The rule, synchronous: at the end of a batch all centers are processed at once; before, nothing changes. -/
theorem C54_round_sync (hs : c.base.srbf = none) (ha : c.base.asynchronous = false) {w w' : SopSys d} (h : Sop.Reach c w)
    {i : ℕ} {v : Val} (hst : w.step c (.complete i v) = some w') {r : Rec (Pt d)} (hr : w.sys.recs[i]? = some r)
    (hk : r.kind = .adapt) :
    (w'.sys.st.batchQueue = [] ∧ w'.sys.st.pendingEvals = 0 →
      ∀ j q, (w.sop.evals ++ [SopRec.new r.x v])[j]? = some q → w'.sop.evals[j]? =
        some (afterRound (failures c (w.sop.evals ++ [SopRec.new r.x v]) w'.sop.centers j)
          (∃ ce ∈ w'.sop.centers, ce.index = j) q)) ∧
    (¬ (w'.sys.st.batchQueue = [] ∧ w'.sys.st.pendingEvals = 0) →
      w'.sop.evals = w.sop.evals ++ [SopRec.new r.x v]) := by
  obtain ⟨cs, _, _, h3, h4, h5⟩ := complete_round hs h hst hr hk
  refine ⟨fun hb j q hq => ?_, fun hb => h5 ?_⟩
  · rw [h4 (Or.inr hb) j, hq, h3 ha hb.1 hb.2]
    rfl
  · rintro (hf | hf)
    · rw [ha] at hf; simp at hf
    · exact hb hf

/-- No other event changes the counters; an initial completion appends a new entry. -/
theorem C54_other (hs : c.base.srbf = none) {w w' : SopSys d} (h : Sop.Reach c w) {op : Strategy.Op (Pt d)}
    (hst : w.step c op = some w') :
    (∃ i v r, op = .complete i v ∧ w.sys.recs[i]? = some r ∧
      (r.kind = .adapt ∨ w'.sop.evals = w.sop.evals ++ [SopRec.new r.x v])) ∨
    (¬ (∃ i v, op = .complete i v) ∧ w'.sop.evals = w.sop.evals) := other_round hs h hst

open Classical in
theorem afterRound_of {k : ℕ} {q q2 : SopRec d} (used : Prop)
    (e : aged { q with nfail := q.nfail + k, sigma := q.sigma / 2 ^ k } = q2) :
    afterRound k used q = if used ∧ 3 < q2.nfail then { q2 with nfail := 0, ntabu := 1, sigma := 2 / 10 } else q2 := by
  subst e; rfl

/-- Consequences of the rule for one entry: becoming tabu takes a fourth failure (counted since the last reset), the tabu
counter goes 1, 2, 3, 4, 5 and back to 0 unless the entry becomes tabu again. -/
theorem C54_tabu_rule (k : ℕ) (used : Prop) (q : SopRec d) :
    (q.ntabu = 0 → (afterRound k used q).ntabu ≠ 0 → used ∧ 4 ≤ q.nfail + k ∧ (afterRound k used q).ntabu = 1) ∧
    (q.ntabu = 0 → used → 4 ≤ q.nfail + k → (afterRound k used q).ntabu = 1 ∧ (afterRound k used q).nfail = 0) ∧
    (1 ≤ q.ntabu → q.ntabu ≤ 4 → q.nfail + k ≤ 3 → (afterRound k used q).ntabu = q.ntabu + 1) ∧
    (q.ntabu = 5 → (afterRound k used q).ntabu = 0 ∧ (afterRound k used q).nfail = 0) := by
  have hz : ∀ p : SopRec d, p.ntabu = 0 → aged p = p := by intro p hp; unfold aged; rw [if_pos hp]
  have hm : ∀ p : SopRec d, p.ntabu ≠ 0 → p.ntabu < 5 → aged p = { p with ntabu := p.ntabu + 1 } := by
    intro p hp h5; unfold aged; rw [if_neg hp, if_pos h5]
  have h5' : ∀ p : SopRec d, p.ntabu = 5 → aged p = { p with nfail := 0, ntabu := 0, sigma := 2 / 10 } := by
    intro p hp; unfold aged; rw [if_neg (by omega), if_neg (by omega)]
  refine ⟨fun h0 hne => ?_, fun h0 hu h4 => ?_, fun h1 h4 hn => ?_, fun h5 => ?_⟩
  · rw [afterRound_of used (hz _ h0)] at hne ⊢
    by_cases hc : used ∧ 3 < q.nfail + k
    · rw [if_pos hc]; exact ⟨hc.1, by omega, rfl⟩
    · rw [if_neg hc] at hne; exact absurd h0 hne
  · rw [afterRound_of used (hz _ h0), if_pos ⟨hu, by simp only; omega⟩]
    exact ⟨rfl, rfl⟩
  · rw [afterRound_of used (hm _ (Nat.pos_iff_ne_zero.mp h1) (Nat.lt_succ_of_le h4)), if_neg (by simp only; omega)]
  · rw [afterRound_of used (h5' _ h5)]
    simp

/-- A tabu entry that is no center leaves the tabu list after five rounds. -/
theorem C54_tenure (q : SopRec d) (h : q.ntabu = 1) :
    (∀ n < 5, ((aged^[n]) q).ntabu = n + 1) ∧ (aged^[5]) q = { q with nfail := 0, ntabu := 0, sigma := 2 / 10 } := by
  constructor
  · intro n hn
    interval_cases n <;> simp [Function.iterate_succ_apply, aged, h]
  · simp [Function.iterate_succ_apply, aged, h]

/-- "In a row" is wrong: three failures, a success and one more failure make a center tabu. -/
theorem C54_refuted : ∃ a b e f : SopSys 1, Sop.Reach (wcfg true 1 1) a ∧ a.sop.centers.map Center.index = [0] ∧
    a.sys.recs.map Rec.x = [pt 0.475] ∧ (a.sop.evals[0]?).map SopRec.nfail = some 3 ∧
    a.step (wcfg true 1 1) (.complete 0 1) = some b ∧ ¬ Dominated (wcfg true 1 1) b.sop.evals a.sop.evals.length ∧
    Sop.Reach (wcfg true 1 1) e ∧ e.sop.evals = b.sop.evals ∧ e.sop.centers.map Center.index = [0] ∧
    e.step (wcfg true 1 1) (.complete 0 5) = some f ∧ (f.sop.evals[0]?).map SopRec.ntabu = some 1 := witness_row

/-! ## C55 -/

theorem selectedBy_rank {z : Sop d} {rank rank' : ℕ → WithTop ℕ} {idx : List ℕ}
    (he : ∀ i < z.evals.length, rank i = rank' i) (h : SelectedBy c z rank idx) : SelectedBy c z rank' idx := by
  obtain ⟨ord, ch, ⟨hp, b, hb, h1, h2⟩, h3, h4, h5⟩ := h
  have key : ∀ l : List ℕ, (∀ i ∈ l, i ∈ ord) → l.Pairwise (LexLe (tabuStatus z) rank (valueAt z)) →
      l.Pairwise (LexLe (tabuStatus z) rank' (valueAt z)) := by
    intro l hl hpw
    refine List.Pairwise.imp_of_mem ?_ hpw
    intro i j hi hj hij
    have hi' := he i (List.mem_range.mp (hp.mem_iff.mp (hl i hi)))
    have hj' := he j (List.mem_range.mp (hp.mem_iff.mp (hl j hj)))
    unfold LexLe at hij ⊢
    rw [← hi', ← hj']
    exact hij
  refine ⟨ord, ch, ⟨hp, b, hb, fun ht => ⟨(h1 ht).1, key _ (fun i hi => List.mem_of_mem_erase hi) (h1 ht).2⟩,
    fun ht => key _ (fun i hi => hi) (h2 ht)⟩, h3, h4, h5⟩

/-- At the first generation the new centers are selected by tabu status, non-domination rank in the current archive (with
the objectives value and minus the distance to the nearest other point; the ranks of at least 100 points are computed, the
others count as infinite) and value, subject to the radius rule, with the best point first. -/
theorem C55_first_partial (hs : c.base.srbf = none) {w w' : SopSys d} {o : Oracle (Pt d)} (h : Generates c w o w')
    (hF : w.sop.F = none) : ∃ (V : List (Vec 2)) (rank : ℕ → ℕ) (R : ℕ) (idx : List ℕ),
      V.length = w.sop.evals.length ∧
      (∀ i, ∀ hi : i < V.length, ∃ q m, w.sop.evals[i]? = some q ∧ IsNearest c w.sop.evals i m ∧ V[i] = ![(q.fx : ℝ), -m]) ∧
      IsRank V rank ∧ min 100 V.length ≤ ((Finset.range V.length).filter fun k => rank k ≤ R).card ∧
      w'.sop.centers.map Center.index = (w.sop.centers.filter fun ce => ce.newIndex.isNone).map Center.index ++ idx ∧
      (idx ≠ [] → SelectedBy c w.sop (fun i => if rank i ≤ R then (rank i : WithTop ℕ) else ⊤) idx) := by
  obtain ⟨pts, hz⟩ := h.gen hs
  obtain ⟨F, idx, _, _, g0, _, g1, _, g3, _⟩ :=
    generate_selected (h.reach.cinv hs) (fun F hF' => by rw [hF] at hF'; simp at hF') hz
  obtain ⟨ds, hds, hFr⟩ := g0 hF
  have hl : ds.length = (w.sop.evals.map (fRow c)).length := by simpa using (distCol_spec hds).1
  have hlen := objVecs_length hl
  obtain ⟨rank, hrank, R, h1, h2, _⟩ := C41_sorting (M := 2) (by norm_num) (objVecs (w.sop.evals.map (fRow c)) ds) 100
  refine ⟨objVecs (w.sop.evals.map (fRow c)) ds, rank, R, idx, by rw [hlen]; simp, ?_, hrank, h2, g1, ?_⟩
  · intro i hi
    have hle : i < w.sop.evals.length := by rw [hlen] at hi; simpa using hi
    obtain ⟨m, hm, hn⟩ := distCol_nearest hds hle
    refine ⟨w.sop.evals[i], m, List.getElem?_eq_getElem hle, hn, ?_⟩
    rw [objVecs_get hl (by simpa using hle) hi]
    obtain ⟨hb, he⟩ := List.getElem?_eq_some_iff.mp hm
    simp [he, fRow]
  · intro hne
    refine selectedBy_rank ?_ (g3 hne)
    intro i hi
    have hr : (w.sop.evals.map (fRow c))[i]? = some (fRow c w.sop.evals[i]) := by simp [hi]
    obtain ⟨δ, _, hrow⟩ := rankRows_get hl i hr
    unfold rankAt
    rw [hFr, hrow]
    simp only [Option.elim]
    rw [h1 i (by rw [hlen]; simpa using hi)]
    by_cases hR : rank i ≤ R
    · rw [if_pos hR, if_pos hR]; rfl
    · rw [if_neg hR, if_neg hR]; rfl

/-- After the memory was updated once (from the first adaptive completion on in asynchronous runs, from the end of the
first batch on in synchronous runs) the ranks are never used again: the order is tabu status, then value. -/
theorem C55_after_partial (hs : c.base.srbf = none) {w w' : SopSys d} {o : Oracle (Pt d)} (h : Generates c w o w')
    (hf : Fresh w.sop) (ha : Adjusted c w) : ∃ idx,
      w'.sop.centers.map Center.index = (w.sop.centers.filter fun ce => ce.newIndex.isNone).map Center.index ++ idx ∧
      (idx ≠ [] → SelectedBy c w.sop (fun _ => ⊤) idx) := by
  obtain ⟨pts, hz⟩ := h.gen hs
  obtain ⟨F, idx, _, _, _, gF, g1, _, g3, _⟩ := generate_selected (h.reach.cinv hs) hf hz
  obtain ⟨F', hF', hflat⟩ := ha.flat hs
  have hFF : F' = F := by
    have := gF (by rw [hF']; simp)
    rw [hF'] at this
    simpa using this
  refine ⟨idx, g1, fun hne => selectedBy_rank ?_ (g3 hne)⟩
  intro i _
  unfold rankAt
  rw [← hFF]
  cases hi : F'[i]? with
  | none => rfl
  | some row => exact hflat row (List.mem_iff_getElem?.mpr ⟨i, hi⟩)

/-- So the claim fails: with entries 1 and 2 both not tabu, 1 of rank 1 (not dominated) and 2 dominated, entry 2 is taken as
the only center. -/
theorem C55_refuted : ∃ w w' x, Sop.Reach (wcfg true 1 1) w ∧ (∀ i, ¬ Processing w.sop i) ∧
    w.step (wcfg true 1 1) (.propose (worc x)) = some w' ∧ w'.sop.evals = w.sop.evals ∧
    w'.sop.centers.map Center.index = [2] ∧ tabuStatus w.sop 1 = 0 ∧ tabuStatus w.sop 2 = 0 ∧
    ¬ Dominated (wcfg true 1 1) w.sop.evals 1 ∧ Dominated (wcfg true 1 1) w.sop.evals 2 := by
  obtain ⟨w, w', x, h1, _, h3, h4, h5, h6, h7, h8, h9, h10⟩ := witness_tabu
  exact ⟨w, w', x, h1, h3, h4, h5, h6, h7, h8, h9, h10⟩

/-! ## C56 -/

/-- Without losses SOP never raises: in runs in which nothing is aborted or rejected after the initial phase (except that
proposals of a batch may be rejected and repeated), with at most `ncenters` evaluations in flight, the generated points
distinct, and all initial evaluations finished (with two different points) before the first generation, every call of
`propose_action` and every completion succeeds.  (The full claim is refuted below.) -/
theorem C56_live_partial (hs : c.base.srbf = none) (hb : c.base.asynchronous = true ∨ c.base.batchSize = c.ncenters)
    (hm : c.base.maxEvals ≠ c.base.numPts) {w : SopSys d} (h : Calm c w) :
    (∀ o, Allowed c w (.propose o) → ∃ w', w.step c (.propose o) = some w') ∧
    (∀ i v, i < w.sys.recs.length → ∃ w', w.step c (.complete i v) = some w') := h.live hs hb hm

/-- Such a run with two evaluated points. -/
example : ∃ w, Calm (wcfg true 1 1) w ∧ w.sop.evals.length = 2 ∧ Allowed (wcfg true 1 1) w (.propose (worc (pt 0.5))) := by
  obtain ⟨w, h, hsop, _, hp, hr, _⟩ := warm true 1 1
  refine ⟨w, h, by rw [hsop]; rfl, ?_⟩
  intro _ _ _
  have hin : w.sys.inflight = [] := by simp [Sys.inflight, hp, hr]
  refine ⟨by simp [hp], by simp [hr], ?_, by rw [hin]; simp [genCount, wcfg], by rw [hin]; simp [genCount, wcfg]⟩
  rw [← (h.reach.inv rfl).arch]
  refine ⟨(pt 0, 0), by rw [archive, hsop]; simp [SopRec.new], (pt 1, 1), by rw [archive, hsop]; simp [SopRec.new], ?_⟩
  simp only [unit_pt]
  intro he
  have := congrFun he 0
  simp [pt] at this

/-- Asynchronous: every lost evaluation blocks a center for ever.  As soon as `ncenters` more points were generated than
adaptive evaluations completed, `propose_action` raises an exception, whatever the candidate search returns. -/
theorem C56_exhausted_refuted (hs : c.base.srbf = none) (ha : c.base.asynchronous = true) {w : SopSys d} (h : Sop.Reach c w)
    (hq : w.sys.st.batchQueue = []) (hg : Going c.base w.sys.st)
    (hlost : adaptDone w.sys.st.log + c.ncenters ≤ (generatedPts w.sys.st.log).length) (o : Oracle (Pt d)) :
    w.step c (.propose o) = none := async_exhausted hs ha h hq hg hlost o

/-- One center, asynchronous: a single rejected proposal is enough. -/
theorem C56_reject_refuted : ∃ w1 w2 : SopSys 1, Sop.Reach (wcfg true 1 1) w1 ∧
    w1.step (wcfg true 1 1) (.reject 0) = some w2 ∧ Going (wcfg true 1 1).base w2.sys.st ∧ w2.sys.inflight = [] ∧
    ∀ o, w2.step (wcfg true 1 1) (.propose o) = none := witness_reject

/-- Synchronous with `batch_size < ncenters` (one point per batch, two centers): the first completion of an adaptive
evaluation raises, without any loss. -/
theorem C56_batch_refuted : ∃ w2 : SopSys 1, Sop.Reach (wcfg false 1 2) w2 ∧ w2.sys.recs.length = 1 ∧
    ∀ v, w2.step (wcfg false 1 2) (.complete 0 v) = none := witness_batch

/-- Synchronous with `batch_size = ncenters`: an initial evaluation that is killed after the last initial point was proposed
is repeated, and its completion raises. -/
theorem C56_abort_refuted : ∃ w : SopSys 1, Sop.Reach (wcfg false 1 1) w ∧ w.sys.recs.map Rec.x = [pt 0] ∧
    generatedPts w.sys.st.log = [] ∧ ∀ v, w.step (wcfg false 1 1) (.complete 0 v) = none := witness_abort

end Verif.Props
