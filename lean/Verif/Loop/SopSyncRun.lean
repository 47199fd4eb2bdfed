import Verif.Loop.SopSync

/-!
# Runs of SOP in synchronous mode without losses

As the second half of `Loop/Sync.lean`.  Used for C142.
-/

namespace Verif.Loop

open Verif.Num Verif.Utils Verif.Cand Verif.Design Verif.Strategy Verif.Spec Verif.Sop
open List (Perm)

variable {d : ℕ} {L : SopSetup d} {S : Surr d} {f : Pt d → Val} {D : List (Pt d)} {rs : ℕ → SopRnd d}

/-- Whenever points are generated, no two evaluations have the same value. -/
def NoEqualValues (L : SopSetup d) (w : SopSys d) : Prop :=
  wantsPoints L.base w.sys.st → ((completions w.sys.st.log).map Prod.snd).Nodup

/-- States of a run of SOP in which nothing is rejected, killed or lost: the design `D`, then proposals, acceptances and completions
with the values of `f` in any order.  `rs n` are the random draws of a generation of points after `n` proposals; `Q` is a
condition on the states in which a proposal is asked for and the draws.  `S` says what the surrogate predicts for the present data;
the object may be another one in each call as long as it predicts the same. -/
inductive SopSyncRun (Q : SopSys d → SopRnd d → Prop) (L : SopSetup d) (S : Surr d) (f : Pt d → Val) (D : List (Pt d))
    (rs : ℕ → SopRnd d) : SopSys d → Prop
  | create : SopSyncRun Q L S f D rs (SopSys.create L.cfg (sopOracle L D []))
  | ask {w w' : SopSys d} (S' : Surr d) : SopSyncRun Q L S f D rs w → Q w (rs (proposals w.sys.st.log).length) →
      (wantsPoints L.base w.sys.st → S'.mean (surrData w.sys.st) = S.mean (surrData w.sys.st)) →
      sopLoopStep L S' f w (.propose (rs (proposals w.sys.st.log).length)) = some w' → SopSyncRun Q L S f D rs w'
  | accept {w w' : SopSys d} (i : ℕ) : SopSyncRun Q L S f D rs w → sopLoopStep L S f w (.accept i) = some w' →
      SopSyncRun Q L S f D rs w'
  | complete {w w' : SopSys d} (i : ℕ) : SopSyncRun Q L S f D rs w → sopLoopStep L S f w (.complete i) = some w' →
      SopSyncRun Q L S f D rs w'

theorem SopSyncRun.reach {Q : SopSys d → SopRnd d → Prop} {w : SopSys d} (h : SopSyncRun Q L S f D rs w) : Reach L.cfg w := by
  induction h with
  | create => exact .create _
  | ask S' _ _ _ hs ih =>
    simp only [sopLoopStep, Option.bind_eq_some_iff] at hs
    obtain ⟨g, _, hs⟩ := hs
    exact .step _ ih hs
  | accept i _ hs ih => exact .step (.accept i) ih hs
  | complete i _ hs ih =>
    simp only [sopLoopStep, Option.bind_eq_some_iff] at hs
    obtain ⟨r, _, hs⟩ := hs
    exact .step _ ih hs

theorem sopPoints_agree {S' : Surr d} {s : State (Pt d)} (h : S'.mean (surrData s) = S.mean (surrData s)) (E : List (SopRec d))
    (cs : List (Center d)) (l : List (CandRnd d)) : sopPoints L S' s E cs l = sopPoints L S s E cs l := by
  have hg : sopPoint L S' s = sopPoint L S s := by
    funext xc sg r
    unfold sopPoint
    cases s.curX with
    | nil => rfl
    | cons a as => simp only [h]
  rw [sopPoints_eq, sopPoints_eq, hg]

theorem sopGen_agree {S' : Surr d} {w : SopSys d} (h : S'.mean (surrData w.sys.st) = S.mean (surrData w.sys.st)) (n : ℕ)
    (r : SopRnd d) : sopGen L S' w n r = sopGen L S w n r := by
  simp only [sopGen, sopPoints_agree h]

/-- SOP within the batch that began in state `b` with memory `z`. -/
structure SopWithin (L : SopSetup d) (f : Pt d → Val) (b : State (Pt d)) (z : Sop d) (w : SopSys d) (popped done : List (Pt d)) : Prop where
  base : Within L.base f b w.sys popped done
  reach : Reach L.cfg w
  init : b.phase = .initial → w.sop = { z with evals := z.evals ++ done.map (recOf f) }
  going : b.phase = .adaptive → done.length < b.batchQueue.length →
    w.sop = ⟨z.evals ++ done.map (recOf f), markAll z.evals.length z.centers done, z.F⟩
  over : b.phase = .adaptive → done.length = b.batchQueue.length → ∃ n,
    Sop.adjustMemory L.cfg n none ⟨z.evals ++ done.map (recOf f), markAll z.evals.length z.centers done, z.F⟩ = some w.sop

theorem SopWithin.evals {b : State (Pt d)} {z : Sop d} {w : SopSys d} {popped done : List (Pt d)}
    (h : SopWithin L f b z w popped done) : archive w.sop = archive z ++ done.map fun x => (x, f x) := by
  have key : ∀ cs F, archive ⟨z.evals ++ done.map (recOf f), cs, F⟩ = archive z ++ done.map fun x => (x, f x) := by
    intro cs F
    simp [archive, recOf, SopRec.new]
  rcases (by cases b.phase <;> simp : b.phase = .initial ∨ b.phase = .adaptive) with hph | hph
  · rw [h.init hph]; exact key _ _
  · have := h.base.count
    rcases Nat.lt_or_ge done.length b.batchQueue.length with hl | hl
    · rw [h.going hph hl]; exact key _ _
    · obtain ⟨n, hn⟩ := h.over hph (by omega)
      rw [adjustMemory_archive hn]; exact key _ _

/-- The beginnings of the batches of a run. -/
inductive SopChain (L : SopSetup d) (S : Surr d) (f : Pt d → Val) (D : List (Pt d)) (rs : ℕ → SopRnd d) :
    ℕ → State (Pt d) → Sop d → List (Pt d) → Prop
  | start : SopChain L S f D rs 0 (State.create L.base (sopOracle L D [])) ⟨[], [], none⟩ []
  | next {k : ℕ} {b : State (Pt d)} {z z' : Sop d} {ps popped done g : List (Pt d)} {w : SopSys d} :
      SopChain L S f D rs k b z ps → SopWithin L f b z w popped done → w.sys.st.batchQueue = [] → w.sys.inflight = [] →
      (w.sop.evals.map SopRec.fx).Nodup →
      sopGen L S w L.base.batchSize (rs (ps ++ popped).length) = some g →
      w.sop.generate L.cfg w.sys.st.numEvals.toNat ((List.range L.base.batchSize).map
        (sopOracle L (rs (ps ++ popped).length).design g).pts) = some z' →
      SopChain L S f D rs (k + 1) (genState w.sys.st ((List.range L.base.batchSize).map
        (sopOracle L (rs (ps ++ popped).length).design g).pts)) z' (ps ++ popped)

theorem SopChain.isBase (hs : L.base.srbf = none) (hn : 0 < L.base.numPts) (hbs : 0 < L.base.batchSize) {k : ℕ} {b : State (Pt d)}
    {z : Sop d} {ps : List (Pt d)} (h : SopChain L S f D rs k b z ps) : IsBase L.base b := by
  induction h with
  | start => exact create_isBase hn _
  | next _ hw hq hi _ _ _ ih =>
    obtain ⟨e1, e2, e3, e4⟩ := hw.base.ended ih hq hi
    refine ⟨?_, (hw.reach.inv hs).conv, e1, e2, hw.base.ev, e3, e4⟩
    intro h
    simp only [genState, List.map_eq_nil_iff, List.range_eq_nil] at h
    omega

/-- Facts about the memory at the beginning of a batch. -/
structure Fresh (L : SopSetup d) (b : State (Pt d)) (z : Sop d) : Prop where
  init : b.phase = .initial → z = ⟨[], [], none⟩
  new : b.phase = .adaptive → (newPts z.centers).Perm b.batchQueue
  unmarked : ∀ ce ∈ z.centers, ce.newIndex = none
  index : ∀ ce ∈ z.centers, ce.index < z.evals.length
  len : z.centers = [] ∨ z.centers.length = L.ncenters

theorem done_perm {b : State (Pt d)} {w : Sys (Pt d)} {popped done : List (Pt d)} (h : Within L.base f b w popped done)
    (hq : w.st.batchQueue = []) (hi : w.inflight = []) : done.Perm b.batchQueue := by
  rw [h.queue, hq, List.nil_append]
  have := h.perm
  rw [hi, List.append_nil] at this
  exact this.symm.trans (List.reverse_perm popped).symm

theorem done_nodup {b : State (Pt d)} {z : Sop d} {w : SopSys d} {popped done : List (Pt d)}
    (h : SopWithin L f b z w popped done) (hv : (w.sop.evals.map SopRec.fx).Nodup) : done.Nodup := by
  have e := congrArg (List.map Prod.snd) h.evals
  rw [List.map_append, List.map_map] at e
  have e1 : (archive w.sop).map Prod.snd = w.sop.evals.map SopRec.fx := by simp [archive, Function.comp_def]
  rw [← e1, e] at hv
  have := (List.nodup_append.mp hv).2.1
  exact List.Nodup.of_map f (by simpa [Function.comp_def] using this)

/-- At the end of a batch all new points are evaluated. -/
theorem SopWithin.allDone {b : State (Pt d)} {z : Sop d} {w : SopSys d} {popped done : List (Pt d)}
    (h : SopWithin L f b z w popped done) (hf : Fresh L b z) (hq : w.sys.st.batchQueue = []) (hi : w.sys.inflight = [])
    (hv : (w.sop.evals.map SopRec.fx).Nodup) : AllDone w.sop.centers := by
  have hc := h.base.count
  rw [hq, hi] at hc
  simp only [List.length_nil, Nat.zero_add, Nat.add_zero] at hc
  rcases (by cases b.phase <;> simp : b.phase = .initial ∨ b.phase = .adaptive) with hph | hph
  · rw [h.init hph, hf.init hph]
    intro ce hce; cases hce
  · obtain ⟨n, hn⟩ := h.over hph hc.symm
    have hnd := done_nodup h hv
    have hnp : (newPts z.centers).Nodup :=
      ((hf.new hph).trans (done_perm h.base hq hi).symm).nodup_iff.mpr hnd
    obtain ⟨_, _, _, _, _, _, hcs, _, _⟩ := adjustMemory_spec hn
    rw [hcs]
    refine adjust_allDone ?_ hn
    show markAll _ _ _ = [] ∨ (markAll _ _ _).length = L.ncenters
    rw [markAll_eq hnp _ hnd, List.length_map]
    rcases hf.len with hl | hl
    · left; rw [hl]; rfl
    · exact .inr hl

theorem archive_length (z : Sop d) : (archive z).length = z.evals.length := by simp [archive]

theorem SopChain.fresh (hs : L.base.srbf = none) {k : ℕ} {b : State (Pt d)} {z : Sop d} {ps : List (Pt d)}
    (h : SopChain L S f D rs k b z ps) : Fresh L b z := by
  induction h with
  | start => exact ⟨fun _ => rfl, (fun h => by rw [create_eq] at h; cases h), by simp, by simp, .inl rfl⟩
  | @next k b z z' ps popped done g w hc hw hq hi hv hg hz ih =>
    obtain ⟨h1, h2⟩ := generate_fresh (hw.allDone ih hq hi hv) hz
    obtain ⟨h3, h4⟩ := generate_cinv hz (hw.reach.cinv hs)
    refine ⟨(fun h => by cases h), fun _ => h1, h2, ?_, .inr h4⟩
    intro ce hce
    obtain ⟨v, hv⟩ := h3.at_ ce hce
    rw [← archive_length]
    exact (List.getElem?_eq_some_iff.mp hv).1

/-- The memories at the end of the batches agree. -/
theorem SopWithin.memory {b b' : State (Pt d)} {z z' : Sop d} {w w' : SopSys d} {popped done popped' done' : List (Pt d)}
    (hbb : BaseEq b b') {σ : Equiv.Perm ℕ} (hz : SopStart σ z z') (hf : Fresh L b z) (hf' : Fresh L b' z')
    (h : SopWithin L f b z w popped done) (h' : SopWithin L f b' z' w' popped' done') (hq : w.sys.st.batchQueue = [])
    (hq' : w'.sys.st.batchQueue = []) (hi : w.sys.inflight = []) (hi' : w'.sys.inflight = [])
    (hv : (w.sop.evals.map SopRec.fx).Nodup) : ∃ ρ, SopEnd L.cfg ρ w.sop w'.sop := by
  have hd := done_perm h.base hq hi
  have hd' := done_perm h'.base hq' hi'
  have hdd : done.Perm done' := by rw [← hbb.queue] at hd'; exact hd.trans hd'.symm
  rcases (by cases b.phase <;> simp : b.phase = .initial ∨ b.phase = .adaptive) with hph | hph
  · have hph' : b'.phase = .initial := by rw [← hbb.phase]; exact hph
    have e := h.init hph
    have e' := h'.init hph'
    rw [hf.init hph] at e
    rw [hf'.init hph'] at e'
    obtain ⟨ρ, hρ⟩ := exists_isPerm (hdd.map (recOf f))
    refine ⟨ρ, ?_, ?_, ?_, .inl ⟨?_, ?_⟩⟩ <;> (try rw [e]) <;> (try rw [e'])
    · exact hρ
    · intro ce hce; cases hce
    · intro ce hce; cases hce
  · have hph' : b'.phase = .adaptive := by rw [← hbb.phase]; exact hph
    obtain ⟨n, hn⟩ := h.over hph hd.length_eq
    obtain ⟨n', hn'⟩ := h'.over hph' hd'.length_eq
    have hnn : n' = n := by
      obtain ⟨_, _, e, _⟩ := adjustMemory_spec hn
      obtain ⟨_, _, e', _⟩ := adjustMemory_spec hn'
      simp only [List.length_append, List.length_map] at e e'
      have := hz.evals.length
      have := hdd.length_eq
      omega
    rw [hnn] at hn'
    have hnd := done_nodup h hv
    have hnp : (newPts z.centers).Nodup := ((hf.new hph).trans hd.symm).nodup_iff.mpr hnd
    exact hz.finish hdd hnd hnp hf.unmarked hf.index hf.len hn hn'

/-- The batches are determined, up to the order of the data. -/
theorem SopChain.determined (hS : OrderFreeSurr S) (hs : L.base.srbf = none) (hn : 0 < L.base.numPts) (hbs : 0 < L.base.batchSize)
    {k : ℕ} {b b' : State (Pt d)} {z z' : Sop d} {ps ps' : List (Pt d)} (h : SopChain L S f D rs k b z ps)
    (h' : SopChain L S f D rs k b' z' ps') : ps = ps' ∧ BaseEq b b' ∧ ∃ σ, SopStart σ z z' := by
  induction h generalizing b' z' ps' with
  | start =>
    cases h'
    refine ⟨rfl, ⟨?_, rfl, rfl⟩, 1, .refl _, rfl⟩
    rw [create_eq]
    exact ⟨⟨[], [], .nil, rfl, rfl, rfl, rfl⟩, .rfl, rfl, .rfl, .rfl, rfl⟩
  | @next k b z z1 ps popped done g w hc hw hq hi hv hg hz ih =>
    cases h' with
    | @next _ b2 z2 _ ps2 popped' done' g' w' hc' hw' hq' hi' hv' hg' hz' =>
      obtain ⟨rfl, hbe, σ, hσ⟩ := ih hc'
      obtain ⟨rfl, hsd, _⟩ := hw.base.sameData (hc.isBase hs hn hbs) hbe hw'.base hq hq' hi hi'
      obtain ⟨ρ, hρ⟩ := hw.memory hbe hσ (hc.fresh hs) (hc'.fresh hs) hw' hq hq' hi hi' hv
      have hnum : w.sys.st.numEvals = w'.sys.st.numEvals := by
        rw [hw.reach.count hs, hw'.reach.count hs, hρ.evals.length]
      have hgg := sopGen_order hS hρ hsd hnum hv hg hg'
      subst hgg
      refine ⟨rfl, ⟨?_, rfl, rfl⟩, ρ, ?_⟩
      · exact ⟨hsd.cur, hsd.fX, hsd.X, hsd.surr, hsd.Xpend, hsd.srbf⟩
      · rw [← hnum] at hz'
        exact hρ.generate hv hz hz'

theorem SopChain.before {k : ℕ} {b : State (Pt d)} {z : Sop d} {ps : List (Pt d)} (h : SopChain L S f D rs k b z ps) :
    ∀ j < k, ∃ b' z' ps', SopChain L S f D rs j b' z' ps' ∧ ps' ++ b'.batchQueue.reverse <+: ps := by
  induction h with
  | start => intro j hj; omega
  | @next k b z z' ps popped done g w hc hw hq hi hv hg hz ih =>
    intro j hj
    have hrev : b.batchQueue.reverse = popped := by rw [hw.base.queue, hq]; simp
    rcases Nat.lt_succ_iff_lt_or_eq.mp hj with h | rfl
    · obtain ⟨b', z', ps', h1, h2⟩ := ih j h
      exact ⟨b', z', ps', h1, h2.trans (List.prefix_append _ _)⟩
    · exact ⟨b, z, ps, hc, by rw [hrev]⟩

theorem termState_eq (s : State (Pt d)) : ∃ l, termState s = { s with terminate := true, log := l } ∧ proposals l = proposals s.log := by
  unfold termState
  split_ifs
  · refine ⟨s.log ++ [.terminated], rfl, ?_⟩
    rw [proposals_append]; simp [proposals]
  · exact ⟨s.log, rfl, rfl⟩

/-- Every state of such a run lies within a batch of the chain. -/
theorem SopSyncRun.within (hs : L.base.srbf = none) (ha : L.base.asynchronous = false) (hn : 0 < L.base.numPts) (hbs : 0 < L.base.batchSize)
    {Q : SopSys d → SopRnd d → Prop} (hub : ∀ w r, Q w r → NoEqualValues L w)
    {w : SopSys d} (h : SopSyncRun Q L S f D rs w) :
    ∃ k b z ps popped done, SopChain L S f D rs k b z ps ∧ SopWithin L f b z w popped done ∧ proposals w.sys.st.log = ps ++ popped := by
  induction h with
  | create =>
    have hb := create_isBase (cfg := L.base) hn (sopOracle L D [])
    refine ⟨0, _, _, [], [], [], .start, ⟨Within.start hb, .create _, ?_, ?_, ?_⟩, ?_⟩
    · intro _; simp [SopSys.create]
    · intro h; rw [create_eq] at h; cases h
    · intro h; rw [create_eq] at h; cases h
    · simp [SopSys.create, Sys.create, create_eq, SopSetup.cfg, proposals]
  | @ask w w' S' hr hQ hagree hstep ih =>
    obtain ⟨k, b, z, ps, popped, done, hch, hw, hps⟩ := ih
    have hbase := hch.isBase hs hn hbs
    have hreach := (SopSyncRun.ask S' hr hQ hagree hstep).reach
    have hinv := hr.reach.inv hs
    simp only [sopLoopStep, Option.bind_eq_some_iff] at hstep
    obtain ⟨g, hans, hstep⟩ := hstep
    have hzn : ∀ sc, L.base.srbf = some sc → w.sys.st.srbf ≠ none := by
      intro sc hsc; rw [hs] at hsc; cases hsc
    have hprop := step_propose (c := L.cfg) hs hinv.conv hstep
    obtain ⟨o, ho⟩ : ∃ o, o = sopOracle L (rs (proposals w.sys.st.log).length).design g := ⟨_, rfl⟩
    rw [← ho] at hprop
    have hcount : genCount L.cfg.base = L.base.batchSize := by
      show genCount L.base = _
      unfold genCount; rw [ha]; rfl
    cases hprop with
    | term ht =>
      obtain ⟨l, hl, hl2⟩ := termState_eq w.sys.st
      refine ⟨k, b, z, ps, popped, done, hch, ⟨?_, hreach, hw.init, hw.going, hw.over⟩, ?_⟩
      · rw [hl]
        exact hw.base.silent hzn (.inl rfl) (.inl rfl) l
      · rw [hl]; exact hl2.trans hps
    | queue x q hq hg =>
      have e : proposeLast w.sys w.sys.st q x (Verif.Sop.kindOf w.sys.st.phase) =
          ⟨{ State.makeProposal { w.sys.st with batchQueue := q } x with log := w.sys.st.log ++ [Event.proposed x (kindOf w.sys.st.phase)] },
            w.sys.props ++ [⟨x, kindOf w.sys.st.phase⟩], w.sys.recs⟩ := by
        have : Verif.Sop.kindOf w.sys.st.phase = kindOf w.sys.st.phase := by cases w.sys.st.phase <;> rfl
        rw [this]; rfl
      rw [e] at hreach ⊢
      refine ⟨k, b, z, ps, popped ++ [x], done, hch, ⟨?_, hreach, hw.init, hw.going, hw.over⟩, ?_⟩
      · exact hw.base.pop hq _
      · show proposals (w.sys.st.log ++ [Event.proposed x (kindOf w.sys.st.phase)]) = _
        rw [proposals_append, hps]; simp [proposals]
    | gen x q z' hpts hq hg hap hz =>
      have hp : w.sys.st.pendingEvals = 0 := by
        rcases hap with h | h
        · exact absurd h (by rw [show L.cfg.base = L.base from rfl, ha]; simp)
        · exact h
      have hi : w.sys.inflight = [] := by
        have := hw.base.pend
        rw [hp] at this
        exact List.length_eq_zero_iff.mp (by omega)
      have hwp : wantsPoints L.base w.sys.st := ⟨hg.notTerm, hg.budget, hinv.conv, hq, .inr hp⟩
      have hv : (w.sop.evals.map SopRec.fx).Nodup := by
        have e1 : (archive w.sop).map Prod.snd = w.sop.evals.map SopRec.fx := by simp [archive, Function.comp_def]
        rw [← e1, hinv.arch]
        exact hub _ _ hQ hwp
      simp only [sopAnswer, if_pos hwp, wanted, ha] at hans
      rw [sopGen_agree (hagree hwp)] at hans
      rw [hps] at hans ho
      have hqx : (List.range L.base.batchSize).map (sopOracle L (rs (ps ++ popped).length).design g).pts = q ++ [x] := by
        rw [← ho, ← hcount]; exact hpts
      have hch' : SopChain L S f D rs (k + 1) (genState w.sys.st (q ++ [x])) z' (ps ++ popped) := by
        rw [← hqx]
        refine .next hch hw hq hi hv hans ?_
        rw [hqx]; exact hz
      have hb' := hch'.isBase hs hn hbs
      have hprops : w.sys.props = [] ∧ w.sys.recs = [] := by
        have := hi
        simp only [Sys.inflight, List.append_eq_nil_iff, List.map_eq_nil_iff] at this
        exact this
      refine ⟨k + 1, genState w.sys.st (q ++ [x]), z', ps ++ popped, [x], [], hch', ⟨?_, hreach, ?_, ?_, ?_⟩, ?_⟩
      · unfold proposeLast
        rw [hprops.1, hprops.2]
        exact (Within.start (f := f) hb').pop (q := q) rfl _
      · intro h; cases h
      · intro _ _; simp [markAll]
      · intro _ h; simp [genState] at h
      · show proposals ((w.sys.st.log ++ [.generated (q ++ [x]) []]) ++ [Event.proposed x .adapt]) = _
        rw [proposals_append, proposals_append, hps]; simp [proposals]
    | genNone z hn' => rw [hcount] at hn'; omega
    | wait hq hg _ hp =>
      refine ⟨k, b, z, ps, popped, done, hch, ⟨?_, hreach, hw.init, hw.going, hw.over⟩, hps⟩
      exact hw.base.silent hzn (.inr ⟨hq, rfl⟩) (.inl rfl) w.sys.st.log
  | @accept w w' i hr hstep ih =>
    obtain ⟨k, b, z, ps, popped, done, hch, hw, hps⟩ := ih
    have hreach := (SopSyncRun.accept i hr hstep).reach
    simp only [sopLoopStep] at hstep
    obtain ⟨h1, h2⟩ := step_other hstep (by simp) (by simp)
    simp only [Sys.step] at h2
    cases hi : w.sys.props[i]? with
    | none => rw [hi] at h2; cases h2
    | some p =>
      rw [hi] at h2
      simp only [Option.some.injEq] at h2
      refine ⟨k, b, z, ps, popped, done, hch, ⟨?_, hreach, ?_, ?_, ?_⟩, ?_⟩
      · rw [← h2]
        exact hw.base.accept hi (w.sys.st.log ++ [Event.accepted p.x p.kind w.sys.st.evNext])
      · rw [h1]; exact hw.init
      · rw [h1]; exact hw.going
      · rw [h1]; exact hw.over
      · rw [← h2]
        show proposals (w.sys.st.log ++ [Event.accepted p.x p.kind w.sys.st.evNext]) = _
        rw [proposals_append, hps]; simp [proposals]
  | @complete w w' i hr hstep ih =>
    obtain ⟨k, b, z, ps, popped, done, hch, hw, hps⟩ := ih
    have hreach := (SopSyncRun.complete i hr hstep).reach
    have hinv' := hreach.inv hs
    simp only [sopLoopStep, Option.bind_eq_some_iff] at hstep
    obtain ⟨r, hrec, hstep⟩ := hstep
    obtain ⟨r', hr', hsys, hsop⟩ := step_complete (c := L.cfg) hs hstep
    rw [hrec] at hr'
    cases hr'
    have hbs' := hch.isBase hs hn hbs
    have hwb := hw.base.complete hbs' ha hrec (.completed r.x r.kind (f r.x) r.accAt)
    have hwb' : Within L.base f b w'.sys popped (done ++ [r.x]) := by
      rw [hsys]
      have hcomp : (w.sys.st.note (.completed r.x r.kind (f r.x) r.accAt)).onCompleted L.base r.x r.kind (f r.x) r.evId =
          (w.sys.st.note (.completed r.x r.kind (f r.x) r.accAt)).recordCompleted r.x (f r.x) r.evId := by
        unfold State.onCompleted
        rw [hs]
        cases r.kind <;> rfl
      rw [← hcomp]
      convert hwb
    have hprops : proposals w'.sys.st.log = ps ++ popped := by
      rw [hsys, recordCompleted_eq]
      show proposals (w.sys.st.log ++ [_]) = _
      rw [proposals_append, hps]; simp [proposals]
    have hkind := hw.base.kr r (List.mem_of_getElem? hrec)
    have hev : r.evId ≥ w'.sys.st.evLast := by rw [hinv'.evLast]; exact Nat.zero_le _
    have hcnt := hwb'.count
    have hlen : (done ++ [r.x]).length = done.length + 1 := by simp
    rcases (by cases b.phase <;> simp : b.phase = .initial ∨ b.phase = .adaptive) with hph | hph
    · rw [hph] at hkind
      rw [hkind] at hsop
      simp only [kindOf] at hsop
      refine ⟨k, b, z, ps, popped, done ++ [r.x], hch, ⟨hwb', hreach, ?_, ?_, ?_⟩, hprops⟩
      · intro _
        rw [hsop, hw.init hph]
        unfold Sop.onInitialCompleted
        rw [if_pos hev]
        simp [recOf]
      · intro h; rw [hph] at h; cases h
      · intro h; rw [hph] at h; cases h
    · rw [hph] at hkind
      rw [hkind] at hsop
      simp only [kindOf] at hsop
      have hlt : done.length < b.batchQueue.length := by omega
      have hwl := hw.going hph hlt
      have hnum : w'.sys.st.numEvals.toNat = z.evals.length + done.length + 1 := by
        have e1 := hreach.count hs
        have e2 := hr.reach.count hs
        have e3 : w'.sys.st.numEvals = w.sys.st.numEvals + 1 := by
          rw [hsys, recordCompleted_eq]; rfl
        rw [hwl] at e2
        simp only [List.length_append, List.length_map] at e2
        omega
      unfold Sop.onAdaptCompleted at hsop
      rw [if_pos hev, hwl] at hsop
      simp only [hnum, Nat.add_sub_cancel] at hsop
      rw [show L.cfg.base.asynchronous = false from ha] at hsop
      simp only [Bool.false_eq_true, if_false] at hsop
      rw [← markAll_concat] at hsop
      have hev2 : z.evals ++ done.map (recOf f) ++ [SopRec.new r.x (f r.x)] = z.evals ++ (done ++ [r.x]).map (recOf f) := by
        simp [recOf]
      rw [hev2] at hsop
      refine ⟨k, b, z, ps, popped, done ++ [r.x], hch, ⟨hwb', hreach, ?_, ?_, ?_⟩, hprops⟩
      · intro h; rw [hph] at h; cases h
      · intro _ hl
        rw [if_neg] at hsop
        · exact (Option.some_inj.mp hsop).symm
        · intro h
          simp only [Bool.and_eq_true, List.isEmpty_iff, beq_iff_eq] at h
          have := hwb'.pend
          rw [h.2] at this
          rw [h.1] at hcnt
          simp only [List.length_nil] at hcnt
          omega
      · intro _ hl
        rw [if_pos] at hsop
        · exact ⟨_, hsop⟩
        · simp only [Bool.and_eq_true, List.isEmpty_iff, beq_iff_eq]
          have := hwb'.pend
          refine ⟨List.length_eq_zero_iff.mp (by omega), by omega⟩

/-- Two such runs propose the same points in the same order; only how far they are may differ. -/
theorem sopSyncRun_prefix (hS : OrderFreeSurr S) (hs : L.base.srbf = none) (ha : L.base.asynchronous = false) (hn : 0 < L.base.numPts)
    (hbs : 0 < L.base.batchSize) {Q : SopSys d → SopRnd d → Prop} (hub : ∀ w r, Q w r → NoEqualValues L w)
    {w w' : SopSys d} (h : SopSyncRun Q L S f D rs w) (h' : SopSyncRun Q L S f D rs w') :
    proposals w.sys.st.log <+: proposals w'.sys.st.log ∨ proposals w'.sys.st.log <+: proposals w.sys.st.log := by
  obtain ⟨k, b, z, ps, popped, done, hch, hw, hps⟩ := h.within hs ha hn hbs hub
  obtain ⟨k', b', z', ps', popped', done', hch', hw', hps'⟩ := h'.within hs ha hn hbs hub
  have hpre : ∀ {b : State (Pt d)} {w : Sys (Pt d)} {popped done : List (Pt d)}, Within L.base f b w popped done → popped <+: b.batchQueue.reverse := by
    intro b w popped done h
    rw [h.queue, List.reverse_append, List.reverse_reverse]
    exact List.prefix_append _ _
  rw [hps, hps']
  rcases Nat.lt_trichotomy k k' with hlt | rfl | hlt
  · left
    obtain ⟨b1, z1, ps1, hc1, hp1⟩ := hch'.before k hlt
    obtain ⟨rfl, hbe, _⟩ := hch.determined hS hs hn hbs hc1
    refine ((List.prefix_append_right_inj ps).mpr (hpre hw.base)).trans ?_
    rw [hbe.queue]
    exact hp1.trans (List.prefix_append _ _)
  · obtain ⟨rfl, hbe, _⟩ := hch.determined hS hs hn hbs hch'
    have h1 := hpre hw.base
    have h2 := hpre hw'.base
    rw [hbe.queue] at h1
    rcases List.prefix_or_prefix_of_prefix h1 h2 with h | h
    · exact .inl ((List.prefix_append_right_inj ps).mpr h)
    · exact .inr ((List.prefix_append_right_inj ps).mpr h)
  · right
    obtain ⟨b1, z1, ps1, hc1, hp1⟩ := hch.before k' hlt
    obtain ⟨rfl, hbe, _⟩ := hch'.determined hS hs hn hbs hc1
    refine ((List.prefix_append_right_inj ps').mpr (hpre hw'.base)).trans ?_
    rw [hbe.queue]
    exact hp1.trans (List.prefix_append _ _)

end Verif.Loop
