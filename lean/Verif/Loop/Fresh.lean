import Verif.Strategy.Inv3

/-! # Runs whose queued points are new: no point is evaluated twice -/

set_option linter.unusedSectionVars false
set_option linter.unusedSimpArgs false

namespace Verif.Spec

open Verif.Strategy

variable {P : Type} [DecidableEq P]

/-- In this history there was no restart, the points of the initial design are pairwise different, and each batch of
adaptive points consists of pairwise different points that are different from all points completed or in flight at that
time. -/
def FreshRun (log : List (Event P)) : Prop :=
  ∀ k e, k ++ [e] <+: log → match e with
    | .start q => q.Nodup
    | .restart _ => False
    | .generated q _ => q.Nodup ∧ ∀ x ∈ q, x ∉ openPoints k ∧ x ∉ (completions k).map Prod.fst
    | _ => True

theorem FreshRun.of_append {l m : List (Event P)} (h : FreshRun (l ++ m)) : FreshRun l :=
  fun k e hk => h k e (hk.trans (List.prefix_append l m))

theorem FreshRun.of_eq {l l' m : List (Event P)} (h : FreshRun l') (e : l' = l ++ m) : FreshRun l := by
  rw [e] at h; exact h.of_append

end Verif.Spec

namespace Verif.Strategy

open Verif.Spec

variable {P : Type} [DecidableEq P] {cfg : Config P}

/-- No point is at two places, and no point was ever in flight twice. -/
structure Once (w : Sys P) : Prop where
  count : ∀ x, w.st.batchQueue.count x + (w.props.map Proposal.x).count x + (w.recs.map Rec.x).count x +
    ((completions w.st.log).map Prod.fst).count x ≤ 1
  opens : ∀ l, l <+: w.st.log → (openPoints l).Nodup

theorem opens_concat {l : List (Event P)} {e : Event P} (h : ∀ k, k <+: l → (openPoints k).Nodup)
    (he : (openPoints (l ++ [e])).Nodup) : ∀ k, k <+: l ++ [e] → (openPoints k).Nodup := by
  intro k hk
  rcases List.prefix_concat_iff.mp hk with rfl | hk
  · exact he
  · exact h k hk

theorem Once.of_book {w : Sys P} {l : List (Event P)} {e : Event P} (hl : w.st.log = l ++ [e])
    (h : ∀ k, k <+: l → (openPoints k).Nodup) (hb : Book cfg w)
    (hc : ∀ x, w.st.batchQueue.count x + (w.props.map Proposal.x).count x + (w.recs.map Rec.x).count x +
      ((completions w.st.log).map Prod.fst).count x ≤ 1) : Once w := by
  refine ⟨hc, ?_⟩
  rw [hl]
  refine opens_concat h ?_
  rw [← hl, hb.opn.nodup_iff, List.nodup_iff_count]
  intro x
  have := hc x
  simp only [Sys.inflight, List.count_append]
  omega

structure OnceInv (cfg : Config P) (w : Sys P) : Prop where
  xp : XPend cfg w
  once : FreshRun w.st.log → Once w

macro "oncecount" h:term : tactic => `(tactic| (
  have hh := $h
  simp only [completions_append, List.count_append, List.map_append, State.note, State.moveEvLast] at hh ⊢
  simp [completions, List.count_append, List.count_cons] at hh ⊢
  try omega))

theorem onceInv_preserved (cfg : Config P) : Preserved cfg (OnceInv cfg) where
  create o := by
    have hx := (xpend_preserved cfg).create o
    refine ⟨hx, fun hf => ?_⟩
    refine Once.of_book (l := []) (e := .start (Sys.create cfg o).st.batchQueue) ?_ ?_ hx.book ?_
    · simp [Sys.create, State.create]
    · intro k hk
      rw [List.prefix_nil.mp hk]
      simp [openPoints]
    · intro x
      have := hf [] (.start (Sys.create cfg o).st.batchQueue) (by simp [Sys.create, State.create])
      have := List.nodup_iff_count.mp this x
      simp only [Sys.create, State.create, completions] at this ⊢
      simpa using this
  setTerm w h hb := ⟨(xpend_preserved cfg).setTerm w h.xp hb, fun hf => ⟨(h.once hf).1, (h.once hf).2⟩⟩
  setPhase w h a b c := ⟨(xpend_preserved cfg).setPhase w h.xp a b c, fun hf => ⟨(h.once hf).1, (h.once hf).2⟩⟩
  gen w o n s' h a b c d e hg := by
    have hx := (xpend_preserved cfg).gen w o n s' h.xp a b c d e hg
    refine ⟨hx, ?_⟩
    rcases generateEvals_cases hg with ⟨ws, z, rfl, hz⟩ | ⟨_, rfl, _⟩
    · intro hf
      have ho := h.once (hf.of_eq rfl)
      refine Once.of_book rfl ho.opens hx.book ?_
      intro x
      have h1 := ho.count x
      obtain ⟨h2, h3⟩ := hf w.st.log _ (List.prefix_refl _)
      have h4 := List.nodup_iff_count.mp h2 x
      rw [c] at h1
      have h5 := h.xp.book.opn.count_eq x
      simp only [Sys.inflight, List.count_append] at h5
      by_cases hm : x ∈ List.map o.pts (List.range n)
      · obtain ⟨h6, h7⟩ := h3 x hm
        rw [List.count_eq_zero.mpr h6] at h5
        have h8 := List.count_eq_zero.mpr h7
        rw [c]
        oncecount h8
      · have h6 := List.count_eq_zero.mpr hm
        rw [c]
        oncecount h1
    · intro hf
      exact ⟨(h.once hf).1, (h.once hf).2⟩
  restart w o h a b c d := by
    have hx := (xpend_preserved cfg).restart w o h.xp a b c d
    refine ⟨hx, fun hf => ?_⟩
    exfalso
    rw [sampleRestart_eq] at hf
    exact hf w.st.log _ (List.prefix_refl _)
  term w h a b := by
    have hx := (xpend_preserved cfg).term w h.xp a b
    refine ⟨hx, fun hf => ?_⟩
    have ho := h.once (hf.of_eq rfl)
    exact Once.of_book rfl ho.opens hx.book fun x => by oncecount (ho.count x)
  pop w x q k h hg hcv hq hk := by
    have hx := (xpend_preserved cfg).pop w x q k h.xp hg hcv hq hk
    refine ⟨hx, fun hf => ?_⟩
    have ho := h.once (hf.of_eq rfl)
    refine Once.of_book rfl ho.opens hx.book fun y => ?_
    have h1 := ho.count y
    rw [hq] at h1
    simp only [State.makeProposal]
    oncecount h1
  accept w i p h hp := by
    have hx := (xpend_preserved cfg).accept w i p h.xp hp
    refine ⟨hx, fun hf => ?_⟩
    have ho := h.once (hf.of_eq rfl)
    refine Once.of_book rfl ho.opens hx.book fun y => ?_
    have h1 := ho.count y
    rw [count_eraseIdx_map Proposal.x hp y] at h1
    simp only [State.onAccept]
    oncecount h1
  rejectInit w i p h hp hk := by
    have hx := (xpend_preserved cfg).rejectInit w i p h.xp hp hk
    refine ⟨hx, fun hf => ?_⟩
    simp only [onInitialRejected_eq] at hf
    have ho := h.once (hf.of_eq rfl)
    refine Once.of_book (by simp only [onInitialRejected_eq]; rfl) ho.opens hx.book fun y => ?_
    have h1 := ho.count y
    rw [count_eraseIdx_map Proposal.x hp y] at h1
    simp only [onInitialRejected_eq]
    oncecount h1
  rejectAdapt w i p h hp hk := by
    have hx := (xpend_preserved cfg).rejectAdapt w i p h.xp hp hk
    refine ⟨hx, fun hf => ?_⟩
    simp only [onAdaptReject_eq] at hf
    have ho := h.once (hf.of_eq rfl)
    refine Once.of_book (by simp only [onAdaptReject_eq]; rfl) ho.opens hx.book fun y => ?_
    have h1 := ho.count y
    rw [count_eraseIdx_map Proposal.x hp y] at h1
    simp only [onAdaptReject_eq]
    cases ha : cfg.asynchronous <;> oncecount h1
  completed w i r v h hr := by
    have hx := (xpend_preserved cfg).completed w i r v h.xp hr
    refine ⟨hx, fun hf => ?_⟩
    simp only [recordCompleted_eq] at hf
    have ho := h.once (hf.of_eq rfl)
    refine Once.of_book (by simp only [recordCompleted_eq]; rfl) ho.opens hx.book fun y => ?_
    have h1 := ho.count y
    rw [count_eraseIdx_map Rec.x hr y] at h1
    simp only [recordCompleted_eq]
    oncecount h1
  adjusted w sc z v h hsc hz hc hv := by
    have hx := (xpend_preserved cfg).adjusted w sc z v h.xp hsc hz hc hv
    refine ⟨hx, fun hf => ?_⟩
    obtain ⟨m, hm⟩ := adjustStep_log (cfg := cfg) sc z (minValue z.recordQueue v) w.st
    have ho := h.once (hf.of_eq hm)
    clear hx hf hm m
    unfold State.adjustStep
    simp only
    have a1 : ∀ k, k <+: w.st.log ++ [.adjusted (minValue z.recordQueue v)] → (openPoints k).Nodup := by
      refine opens_concat ho.opens ?_
      rw [openPoints_concat]
      exact ho.opens _ (List.prefix_refl _)
    have a2 : ∀ k, k <+: w.st.log ++ [.adjusted (minValue z.recordQueue v)] ++ [.stepChange] → (openPoints k).Nodup := by
      refine opens_concat a1 ?_
      rw [openPoints_concat]
      exact a1 _ (List.prefix_refl _)
    split <;> split <;> refine ⟨fun x => ?_, ?_⟩ <;>
      first | exact a1 | exact a2 | (have h1 := ho.count x; oncecount h1)
  queued w z v h hz hc hv :=
    ⟨(xpend_preserved cfg).queued w z v h.xp hz hc hv, fun hf => ⟨(h.once hf).1, (h.once hf).2⟩⟩
  aborted w i r h hr := by
    have hx := (xpend_preserved cfg).aborted w i r h.xp hr
    refine ⟨hx, fun hf => ?_⟩
    simp only [onAborted_eq] at hf
    have ho := h.once (hf.of_eq rfl)
    refine Once.of_book (by simp only [onAborted_eq]; rfl) ho.opens hx.book fun y => ?_
    have h1 := ho.count y
    rw [count_eraseIdx_map Rec.x hr y] at h1
    simp only [onAborted_eq]
    cases hk : r.kind <;> oncecount h1
  resume w h := by
    have hx := (xpend_preserved cfg).resume w h.xp
    refine ⟨hx, fun hf => ?_⟩
    simp only [Sys.resumed, resume_eq, State.note] at hf
    have ho := h.once ((hf.of_append).of_append)
    refine Once.of_book (l := w.st.log ++ [.crashed w.inflight]) (by simp only [Sys.resumed, resume_eq, State.note]; rfl)
      (opens_concat ho.opens (by rw [openPoints_concat]; simp [openStep])) hx.book fun y => ?_
    have h1 := ho.count y
    have h2 := h.xp.le y
    simp only [Sys.inflight, List.count_append] at h2
    simp only [Sys.resumed, resume_eq]
    oncecount h1
    by_cases hp : w.st.phase = .initial
    · simp only [hp, if_true]; omega
    · simp only [hp, if_false, List.count_nil]; omega

theorem Reach.once {w : Sys P} (h : Reach cfg w) (hf : FreshRun w.st.log) : Once w :=
  ((onceInv_preserved cfg).reach h).once hf

end Verif.Strategy
