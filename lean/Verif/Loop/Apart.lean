import Verif.Loop.Once

/-! # EI and LCB keep their distance -/

set_option linter.unusedSectionVars false
set_option linter.unusedSimpArgs false

namespace Verif.Spec

open Verif.Strategy

variable {P : Type} [DecidableEq P]

/-- In this history each batch of chosen points is related pairwise by `R`, and to all points completed or in flight at that time. -/
def FarRun (R : P → P → Prop) (log : List (Event P)) : Prop :=
  ∀ k q ws, k ++ [.generated q ws] <+: log → q.Pairwise R ∧ ∀ x ∈ q, ∀ y, y ∈ openPoints k ∨ y ∈ (completions k).map Prod.fst → R x y

theorem FarRun.of_append {R : P → P → Prop} {l m : List (Event P)} (h : FarRun R (l ++ m)) : FarRun R l :=
  fun k q ws hk => h k q ws (hk.trans (List.prefix_append l m))

theorem FarRun.of_eq {R : P → P → Prop} {l l' m : List (Event P)} (h : FarRun R l') (e : l' = l ++ m) : FarRun R l := by
  rw [e] at h; exact h.of_append

theorem FarRun.concat {R : P → P → Prop} {l : List (Event P)} {e : Event P} (h : FarRun R l)
    (he : ∀ q ws, e = .generated q ws → q.Pairwise R ∧ ∀ x ∈ q, ∀ y, y ∈ openPoints l ∨ y ∈ (completions l).map Prod.fst → R x y) :
    FarRun R (l ++ [e]) := by
  intro k q ws hk
  rcases List.prefix_concat_iff.mp hk with heq | hk
  · obtain ⟨rfl, h2⟩ := List.append_inj' heq rfl
    simp only [List.cons.injEq, and_true] at h2
    exact he q ws h2.symm
  · exact h k q ws hk

theorem FarRun.quiet {R : P → P → Prop} {l m : List (Event P)} (h : FarRun R l) (hm : ∀ e ∈ m, ∀ q ws, e ≠ .generated q ws) :
    FarRun R (l ++ m) := by
  induction m using List.reverseRecOn with
  | nil => simpa using h
  | append_singleton m e ih =>
    rw [← List.append_assoc]
    exact (ih fun e he => hm e (by simp [he])).concat fun q ws he => absurd he (hm e (by simp) q ws)

end Verif.Spec

namespace Verif.Strategy

open Verif.Spec

variable {P : Type} [DecidableEq P] {cfg : Config P} {R : P → P → Prop}

/-- Completed, in flight, or waiting to be proposed. -/
def Alive (w : Sys P) (x : P) : Prop :=
  x ∈ (completions w.st.log).map Prod.fst ∨ x ∈ w.props.map Proposal.x ∨ x ∈ w.recs.map Rec.x ∨ x ∈ w.st.batchQueue

/-- Different points that are alive, one of them chosen by the strategy, are related. -/
def Apart (R : P → P → Prop) (w : Sys P) : Prop :=
  ∀ x y, Alive w x → Alive w y → x ≠ y → x ∈ adaptivePoints w.st.log → R x y

theorem Apart.mono {w w' : Sys P} (h : Apart R w) (ha : ∀ x, Alive w' x → Alive w x)
    (hc : adaptivePoints w'.st.log = adaptivePoints w.st.log) : Apart R w' :=
  fun x y hx hy hne hm => h x y (ha x hx) (ha y hy) hne (hc ▸ hm)

structure ApartInv (R : P → P → Prop) (cfg : Config P) (w : Sys P) : Prop where
  xp : XPend cfg w
  apart : (∀ q, Event.restart q ∉ w.st.log) → FarRun R w.st.log → Apart R w

theorem ApartInv.quiet {w w' : Sys P} (h : ApartInv R cfg w) (hx : XPend cfg w') (m : List (Event P)) (hl : w'.st.log = w.st.log ++ m)
    (hm : adaptivePoints m = []) (ha : ∀ x, Alive w' x → Alive w x) : ApartInv R cfg w' := by
  refine ⟨hx, fun hn hf => ?_⟩
  refine (h.apart (fun q hq => hn q ?_) (hf.of_eq hl)).mono ha ?_
  · rw [hl]; exact List.mem_append_left _ hq
  · rw [hl, adaptivePoints_append, hm, List.append_nil]

theorem mem_eraseIdx_map {α β : Type} (f : α → β) {l : List α} {i : ℕ} {y : β} (h : y ∈ (l.eraseIdx i).map f) : y ∈ l.map f := by
  obtain ⟨a, ha, rfl⟩ := List.mem_map.mp h
  exact List.mem_map_of_mem (List.mem_of_mem_eraseIdx ha)

theorem mem_map_get {α β : Type} (f : α → β) {l : List α} {i : ℕ} {a : α} (h : l[i]? = some a) : f a ∈ l.map f :=
  List.mem_map_of_mem (List.mem_of_getElem? h)

theorem apartInv_preserved (hs : ∀ x y, R x y → R y x) (hR : ∀ x, ¬ R x x) (cfg : Config P) : Preserved cfg (ApartInv R cfg) where
  create o := by
    refine ⟨(xpend_preserved cfg).create o, fun _ _ x y _ _ _ hm => ?_⟩
    simp [Sys.create, State.create, adaptivePoints, sampleInitial_eq, State.blank] at hm
  setTerm w h hb := h.quiet ((xpend_preserved cfg).setTerm w h.xp hb) [] (by simp) rfl fun x hx => hx
  setPhase w h a b c := h.quiet ((xpend_preserved cfg).setPhase w h.xp a b c) [] (by simp) rfl fun x hx => hx
  gen w o n s' h a b c d e hg := by
    have hx := (xpend_preserved cfg).gen w o n s' h.xp a b c d e hg
    rcases generateEvals_cases hg with ⟨ws, z, rfl, hz⟩ | ⟨_, rfl, _⟩
    · refine ⟨hx, fun hn hf => ?_⟩
      have hap := h.apart (fun q hq => hn q (List.mem_append_left _ hq)) (hf.of_eq rfl)
      obtain ⟨h1, h2⟩ := hf w.st.log _ ws (List.prefix_refl _)
      have old : ∀ y, Alive w y → y ∈ openPoints w.st.log ∨ y ∈ (completions w.st.log).map Prod.fst := by
        rintro y (hy | hy | hy | hy)
        · exact .inr hy
        · exact .inl (h.xp.book.opn.mem_iff.mpr (List.mem_append_left _ hy))
        · exact .inl (h.xp.book.opn.mem_iff.mpr (List.mem_append_right _ hy))
        · rw [c] at hy; simp at hy
      have split : ∀ y, Alive { w with st := { w.st with
            srbf := z
            batchQueue := w.st.batchQueue ++ (List.range n).map o.pts
            log := w.st.log ++ [.generated ((List.range n).map o.pts) ws] } } y → Alive w y ∨ y ∈ (List.range n).map o.pts := by
        rintro y (hy | hy | hy | hy)
        · left; left
          simpa [completions_append, completions] using hy
        · exact .inl (.inr (.inl hy))
        · exact .inl (.inr (.inr (.inl hy)))
        · have hy : y ∈ w.st.batchQueue ++ (List.range n).map o.pts := hy
          rw [c, List.nil_append] at hy
          exact .inr hy
      intro x y hx' hy' hne hm
      have hm : x ∈ adaptivePoints (w.st.log ++ [.generated ((List.range n).map o.pts) ws]) := hm
      rw [adaptivePoints_append, List.mem_append] at hm
      rcases split x hx' with hxa | hxq <;> rcases split y hy' with hya | hyq
      · rcases hm with hm | hm
        · exact hap x y hxa hya hne hm
        · have hm : x ∈ (List.range n).map o.pts := by simpa [adaptivePoints] using hm
          exact absurd (h2 x hm x (old x hxa)) (hR x)
      · exact hs _ _ (h2 y hyq x (old x hxa))
      · exact h2 x hxq y (old y hya)
      · haveI : Std.Symm R := ⟨fun x y h => hs x y h⟩
        exact h1.forall hxq hyq hne
    · exact h.quiet hx [] (by simp) rfl fun x hx => hx
  restart w o h a b c d := by
    refine ⟨(xpend_preserved cfg).restart w o h.xp a b c d, fun hn _ => ?_⟩
    exfalso
    rw [sampleRestart_eq] at hn
    exact hn _ (List.mem_append_right _ (List.mem_singleton.mpr rfl))
  term w h a b := h.quiet ((xpend_preserved cfg).term w h.xp a b) [_] rfl rfl fun x hx => by
    rcases hx with hx | hx
    · exact .inl (by simpa [State.note, completions_append, completions] using hx)
    · exact .inr hx
  pop w x q k h hg hcv hq hk := h.quiet ((xpend_preserved cfg).pop w x q k h.xp hg hcv hq hk) [_] rfl rfl fun y hy => by
    rcases hy with hy | hy | hy | hy
    · exact .inl (by simpa [State.note, State.makeProposal, completions_append, completions] using hy)
    · rw [List.map_append, List.mem_append] at hy
      rcases hy with hy | hy
      · exact .inr (.inl hy)
      · refine .inr (.inr (.inr ?_))
        rw [List.mem_singleton.mp hy, hq]; simp
    · exact .inr (.inr (.inl hy))
    · refine .inr (.inr (.inr ?_))
      have hy : y ∈ q := hy
      rw [hq]; simp [hy]
  accept w i p h hp := h.quiet ((xpend_preserved cfg).accept w i p h.xp hp) [_] rfl rfl fun y hy => by
    rcases hy with hy | hy | hy | hy
    · exact .inl (by simpa [State.note, State.onAccept, completions_append, completions] using hy)
    · exact .inr (.inl (mem_eraseIdx_map _ hy))
    · rw [List.map_append, List.mem_append] at hy
      rcases hy with hy | hy
      · exact .inr (.inr (.inl hy))
      · rw [List.mem_singleton.mp hy]
        exact .inr (.inl (mem_map_get Proposal.x hp))
    · exact .inr (.inr (.inr hy))
  rejectInit w i p h hp hk := h.quiet ((xpend_preserved cfg).rejectInit w i p h.xp hp hk) [_]
      (by simp only [onInitialRejected_eq]; rfl) rfl fun y hy => by
    simp only [onInitialRejected_eq] at hy
    rcases hy with hy | hy | hy | hy
    · exact .inl (by simpa [State.note, completions_append, completions] using hy)
    · exact .inr (.inl (mem_eraseIdx_map _ hy))
    · exact .inr (.inr (.inl hy))
    · rcases List.mem_append.mp hy with hy | hy
      · exact .inr (.inr (.inr hy))
      · rw [List.mem_singleton.mp hy]
        exact .inr (.inl (mem_map_get Proposal.x hp))
  rejectAdapt w i p h hp hk := h.quiet ((xpend_preserved cfg).rejectAdapt w i p h.xp hp hk) [_]
      (by simp only [onAdaptReject_eq]; rfl) rfl fun y hy => by
    simp only [onAdaptReject_eq] at hy
    rcases hy with hy | hy | hy | hy
    · exact .inl (by simpa [State.note, completions_append, completions] using hy)
    · exact .inr (.inl (mem_eraseIdx_map _ hy))
    · exact .inr (.inr (.inl hy))
    · have hy : y ∈ w.st.batchQueue ∨ y = p.x := by
        revert hy
        cases cfg.asynchronous <;> simp [State.note] <;> tauto
      rcases hy with hy | rfl
      · exact .inr (.inr (.inr hy))
      · exact .inr (.inl (mem_map_get Proposal.x hp))
  completed w i r v h hr := h.quiet ((xpend_preserved cfg).completed w i r v h.xp hr) [_]
      (by simp only [recordCompleted_eq]; rfl) rfl fun y hy => by
    simp only [recordCompleted_eq] at hy
    rcases hy with hy | hy | hy | hy
    · have hy : y ∈ (completions w.st.log).map Prod.fst ∨ y = r.x := by
        simpa [State.note, completions_append, completions, or_imp] using hy
      rcases hy with hy | rfl
      · exact .inl hy
      · exact .inr (.inr (.inl (mem_map_get Rec.x hr)))
    · exact .inr (.inl hy)
    · exact .inr (.inr (.inl (mem_eraseIdx_map _ hy)))
    · exact .inr (.inr (.inr hy))
  adjusted w sc z v h hsc hz hc hv := by
    have hx := (xpend_preserved cfg).adjusted w sc z v h.xp hsc hz hc hv
    unfold State.adjustStep at hx ⊢
    simp only at hx ⊢
    split <;> split
    · rename_i a b
      rw [if_pos a, if_pos b] at hx
      refine h.quiet hx [_, _] (List.append_assoc _ _ _) rfl fun y hy => ?_
      rcases hy with hy | hy
      · exact .inl (by simpa [completions_append, completions] using hy)
      · exact .inr hy
    · rename_i a b
      rw [if_neg b, if_pos a] at hx
      refine h.quiet hx [_] rfl rfl fun y hy => ?_
      rcases hy with hy | hy
      · exact .inl (by simpa [completions_append, completions] using hy)
      · exact .inr hy
    · rename_i a b
      rw [if_pos b, if_neg a] at hx
      refine h.quiet hx [_, _] (List.append_assoc _ _ _) rfl fun y hy => ?_
      rcases hy with hy | hy
      · exact .inl (by simpa [completions_append, completions] using hy)
      · exact .inr hy
    · rename_i a b
      rw [if_neg b, if_neg a] at hx
      refine h.quiet hx [_] rfl rfl fun y hy => ?_
      rcases hy with hy | hy
      · exact .inl (by simpa [completions_append, completions] using hy)
      · exact .inr hy
  queued w z v h hz hc hv := h.quiet ((xpend_preserved cfg).queued w z v h.xp hz hc hv) [] (by simp) rfl fun x hx => hx
  aborted w i r h hr := h.quiet ((xpend_preserved cfg).aborted w i r h.xp hr) [_]
      (by simp only [onAborted_eq]; rfl) rfl fun y hy => by
    simp only [onAborted_eq] at hy
    rcases hy with hy | hy | hy | hy
    · exact .inl (by simpa [State.note, completions_append, completions] using hy)
    · exact .inr (.inl hy)
    · exact .inr (.inr (.inl (mem_eraseIdx_map _ hy)))
    · rcases List.mem_append.mp hy with hy | hy
      · exact .inr (.inr (.inr hy))
      · have hy : y = r.x := by
          revert hy
          cases r.kind <;> simp
        rw [hy]
        exact .inr (.inr (.inl (mem_map_get Rec.x hr)))
  resume w h := h.quiet ((xpend_preserved cfg).resume w h.xp) [_, _]
      (by simp only [Sys.resumed, resume_eq, State.note, List.append_assoc, List.cons_append, List.nil_append]; rfl) rfl fun y hy => by
    simp only [Sys.resumed, resume_eq, State.note] at hy
    rcases hy with hy | hy | hy | hy
    · exact .inl (by simpa [completions_append, completions] using hy)
    · simp at hy
    · simp at hy
    · rcases List.mem_append.mp hy with hy | hy
      · exact .inr (.inr (.inr hy))
      · have hy : y ∈ w.st.Xpend := by
          revert hy
          split <;> simp
        have h1 := h.xp.le y
        have h2 := List.count_pos_iff.mpr hy
        have h3 : y ∈ w.inflight := List.count_pos_iff.mp (by omega)
        rcases List.mem_append.mp h3 with h3 | h3
        · exact .inr (.inl h3)
        · exact .inr (.inr (.inl h3))

theorem Reach.apart (hs : ∀ x y, R x y → R y x) (hR : ∀ x, ¬ R x x) {w : Sys P} (h : Reach cfg w)
    (hn : ∀ q, Event.restart q ∉ w.st.log) (hf : FarRun R w.st.log) : Apart R w :=
  ((apartInv_preserved hs hR cfg).reach h).apart hn hf

/-- The termination flag is only set when the budget is used up at some moment of the run; `J` holds at that moment. -/
structure TermWhen (cfg : Config P) (J : Sys P → Prop) (w : Sys P) : Prop where
  inv : J w
  moment : w.st.terminate = true → ∃ v : Sys P, J v ∧ v.st.log <+: w.st.log ∧ cfg.maxEvals ≤ v.st.numEvals + v.st.pendingEvals

theorem TermWhen.same {J : Sys P → Prop} {w w' : Sys P} (h : TermWhen cfg J w) (hj : J w') (ht : w'.st.terminate = w.st.terminate)
    (m : List (Event P)) (hl : w'.st.log = w.st.log ++ m) : TermWhen cfg J w' := by
  refine ⟨hj, fun hh => ?_⟩
  obtain ⟨v, h1, h2, h3⟩ := h.moment (ht ▸ hh)
  exact ⟨v, h1, h2.trans (hl ▸ List.prefix_append _ _), h3⟩

theorem termWhen_preserved {J : Sys P → Prop} (hJ : Preserved cfg J) : Preserved cfg (TermWhen cfg J) where
  create o := ⟨hJ.create o, fun h => by simp [Sys.create, create_eq, State.blank] at h⟩
  setTerm w h hb := ⟨hJ.setTerm w h.inv hb, fun _ => ⟨w, h.inv, List.prefix_refl _, hb⟩⟩
  setPhase w h a b c := h.same (hJ.setPhase w h.inv a b c) rfl [] (by simp)
  gen w o n s' h a b c d e hg := by
    have hj := hJ.gen w o n s' h.inv a b c d e hg
    rcases generateEvals_cases hg with ⟨ws, z, rfl, hz⟩ | ⟨_, rfl, _⟩
    · exact h.same hj rfl _ rfl
    · exact h.same hj rfl [] (by simp)
  restart w o h a b c d := h.same (hJ.restart w o h.inv a b c d) (by simp) _ (by rw [sampleRestart_eq])
  term w h a b := h.same (hJ.term w h.inv a b) rfl _ rfl
  pop w x q k h a b c e := h.same (hJ.pop w x q k h.inv a b c e) rfl _ rfl
  accept w i p h hp := h.same (hJ.accept w i p h.inv hp) rfl _ rfl
  rejectInit w i p h hp hk := h.same (hJ.rejectInit w i p h.inv hp hk) (by simp only [onInitialRejected_eq]; rfl) _
    (by simp only [onInitialRejected_eq]; rfl)
  rejectAdapt w i p h hp hk := h.same (hJ.rejectAdapt w i p h.inv hp hk) (by simp only [onAdaptReject_eq]; rfl) _
    (by simp only [onAdaptReject_eq]; rfl)
  completed w i r v h hr := h.same (hJ.completed w i r v h.inv hr) (by simp only [recordCompleted_eq]; rfl) _
    (by simp only [recordCompleted_eq]; rfl)
  adjusted w sc z v h hsc hz hc hv := h.same (hJ.adjusted w sc z v h.inv hsc hz hc hv) (by simp only [adjustStep_eq]) _
    (by simp only [adjustStep_eq]; rfl)
  queued w z v h hz hc hv := h.same (hJ.queued w z v h.inv hz hc hv) rfl [] (by simp)
  aborted w i r h hr := h.same (hJ.aborted w i r h.inv hr) (by simp only [onAborted_eq]; rfl) _ (by simp only [onAborted_eq]; rfl)
  resume w h := h.same (hJ.resume w h.inv) (by simp only [Sys.resumed, resume_eq, State.note]) [_, _]
    (by simp only [Sys.resumed, resume_eq, State.note, List.append_assoc, List.cons_append, List.nil_append]; rfl)

theorem preserved_and {I J : Sys P → Prop} (hI : Preserved cfg I) (hJ : Preserved cfg J) : Preserved cfg fun w => I w ∧ J w where
  create o := ⟨hI.create o, hJ.create o⟩
  setTerm w h a := ⟨hI.setTerm w h.1 a, hJ.setTerm w h.2 a⟩
  setPhase w h a b c := ⟨hI.setPhase w h.1 a b c, hJ.setPhase w h.2 a b c⟩
  gen w o n s' h a b c d e hg := ⟨hI.gen w o n s' h.1 a b c d e hg, hJ.gen w o n s' h.2 a b c d e hg⟩
  restart w o h a b c d := ⟨hI.restart w o h.1 a b c d, hJ.restart w o h.2 a b c d⟩
  term w h a b := ⟨hI.term w h.1 a b, hJ.term w h.2 a b⟩
  pop w x q k h a b c e := ⟨hI.pop w x q k h.1 a b c e, hJ.pop w x q k h.2 a b c e⟩
  accept w i p h hp := ⟨hI.accept w i p h.1 hp, hJ.accept w i p h.2 hp⟩
  rejectInit w i p h hp hk := ⟨hI.rejectInit w i p h.1 hp hk, hJ.rejectInit w i p h.2 hp hk⟩
  rejectAdapt w i p h hp hk := ⟨hI.rejectAdapt w i p h.1 hp hk, hJ.rejectAdapt w i p h.2 hp hk⟩
  completed w i r v h hr := ⟨hI.completed w i r v h.1 hr, hJ.completed w i r v h.2 hr⟩
  adjusted w sc z v h hsc hz hc hv := ⟨hI.adjusted w sc z v h.1 hsc hz hc hv, hJ.adjusted w sc z v h.2 hsc hz hc hv⟩
  queued w z v h hz hc hv := ⟨hI.queued w z v h.1 hz hc hv, hJ.queued w z v h.2 hz hc hv⟩
  aborted w i r h hr := ⟨hI.aborted w i r h.1 hr, hJ.aborted w i r h.2 hr⟩
  resume w h := ⟨hI.resume w h.1, hJ.resume w h.2⟩

/-- What the bound on the evaluations rests on. -/
structure Counted (R : P → P → Prop) (cfg : Config P) (w : Sys P) : Prop where
  once : FreshRun w.st.log → Once w
  apart : (∀ q, Event.restart q ∉ w.st.log) → FarRun R w.st.log → Apart R w
  sourced : Sourced w
  extras : Extras cfg w

theorem Reach.counted (hs : ∀ x y, R x y → R y x) (hR : ∀ x, ¬ R x x) {w : Sys P} (h : Reach cfg w) :
    TermWhen cfg (Counted R cfg) w := by
  have hp := preserved_and (onceInv_preserved cfg) (preserved_and (apartInv_preserved hs hR cfg)
    (preserved_and (sourced_preserved cfg) (extras_preserved cfg)))
  have h1 := (termWhen_preserved hp).reach h
  have conv : ∀ v : Sys P, OnceInv cfg v ∧ ApartInv R cfg v ∧ Sourced v ∧ Extras cfg v → Counted R cfg v :=
    fun v hv => ⟨hv.1.once, hv.2.1.apart, hv.2.2.1, hv.2.2.2⟩
  refine ⟨conv w h1.inv, fun ht => ?_⟩
  obtain ⟨v, a, b, c⟩ := h1.moment ht
  exact ⟨v, conv v a, b, c⟩

theorem noRestart_preserved (hur : cfg.useRestarts = false) : Preserved cfg fun w => ∀ q, Event.restart q ∉ w.st.log where
  create o q := by simp [Sys.create, create_eq]
  setTerm w h a := h
  setPhase w h a b c := h
  gen w o n s' h a b c d e hg := by
    rcases generateEvals_cases hg with ⟨ws, z, rfl, hz⟩ | ⟨_, rfl, _⟩
    · intro q; simp [h q]
    · exact h
  restart w o h a b c d := by simp_all
  term w h a b q := by simp [State.note, h q]
  pop w x q' k h a b c e q := by simp [State.note, State.makeProposal, h q]
  accept w i p h hp q := by simp [State.note, State.onAccept, h q]
  rejectInit w i p h hp hk q := by simp [onInitialRejected_eq, State.note, h q]
  rejectAdapt w i p h hp hk q := by simp [onAdaptReject_eq, State.note, h q]
  completed w i r v h hr q := by simp [recordCompleted_eq, State.note, h q]
  adjusted w sc z v h hsc hz hc hv q := by
    unfold State.adjustStep
    simp only
    split <;> split <;> simp [h q]
  queued w z v h hz hc hv := h
  aborted w i r h hr q := by simp [onAborted_eq, State.note, h q]
  resume w h q := by simp [Sys.resumed, resume_eq, State.note, h q]

theorem Reach.noRestart (hur : cfg.useRestarts = false) {w : Sys P} (h : Reach cfg w) : ∀ q, Event.restart q ∉ w.st.log :=
  (noRestart_preserved hur).reach h

theorem initProposal_restarted {o : Oracle P} {s s' : State P} {a : Action P} (h : (s.sampleRestart cfg o).initProposal = some (a, s')) :
    ∃ q, Event.restart q ∈ s'.log := by
  rw [initProposal_log h, sampleRestart_eq]
  exact ⟨_, List.mem_append_right _ (List.mem_singleton.mpr rfl)⟩

theorem afterGenerate_first {o : Oracle P} {s s' : State P} {a : Action P}
    (h : s.afterGenerate cfg o = some (a, s')) : s'.log = s.log ∨ ∃ q, Event.restart q ∈ s'.log := by
  unfold State.afterGenerate at h
  split at h
  · split at h
    · exact .inr (initProposal_restarted h)
    · simp only [Option.some.injEq, Prod.mk.injEq] at h
      rw [← h.2]; exact .inl rfl
  · exact .inl (adaptProposal_log (by simpa using h))

/-- `propose_action` either leaves the history as it is, or adds one batch of adaptive points, or restarts. -/
theorem proposeAction_first {o : Oracle P} {s s' : State P} {a : Action P} (h : s.proposeAction cfg o = some (a, s')) :
    s'.log = s.log ∨ (∃ q, Event.restart q ∈ s'.log) ∨
      (s.terminate = false ∧ s.numEvals + s.pendingEvals < cfg.maxEvals ∧ s.converged = false ∧
      s.batchQueue = [] ∧ (cfg.asynchronous = true ∨ s.pendingEvals = 0) ∧
      (o.giveUp = false ∨ (cfg.srbf ≠ none ∧ s.srbf ≠ none)) ∧
      ∃ ws, s'.log = s.log ++ [.generated ((List.range (if cfg.asynchronous then 1 else cfg.batchSize)).map o.pts) ws]) := by
  by_cases ht : s.terminate = true ∨ cfg.maxEvals ≤ s.numEvals + s.pendingEvals
  · rw [proposeAction_terminate ht] at h
    simp only [Option.some.injEq, Prod.mk.injEq] at h
    rw [← h.2]; exact .inl rfl
  · simp only [not_or, not_le] at ht
    rw [proposeAction_going (by simpa using ht.1) ht.2] at h
    have hgen : ∀ n s1, State.generateEvals cfg o n { s with phase := .adaptive } = some s1 →
        s1.log = s.log ∨ ((o.giveUp = false ∨ (cfg.srbf ≠ none ∧ s.srbf ≠ none)) ∧ ∃ ws, s1.log = s.log ++ [.generated ((List.range n).map o.pts) ws]) := by
      intro n s1 hg
      rcases generateEvals_cases hg with ⟨ws, z, rfl, hz⟩ | ⟨_, rfl, _⟩
      · refine .inr ⟨?_, ws, rfl⟩
        rcases hz with ⟨sc, z0, next', h1, h2, _⟩ | ⟨h1, h2, h3⟩
        · have h2 : s.srbf = some z0 := h2
          exact .inr ⟨by simp [h1], by simp [h2]⟩
        · left
          by_contra hgu
          unfold State.generateEvals at hg
          split at hg
          · rename_i sc z hsc hz
            have hz : s.srbf = some z := hz
            rcases h2 with h2 | h2
            · rw [h2] at hsc; simp at hsc
            · have h2 : s.srbf = none := h2
              rw [h2] at hz; simp at hz
          · rw [if_pos (by simpa using hgu)] at hg
            have := congrArg (fun t => t.map State.log) hg
            simp at this
      · exact .inl rfl
    have fin : ∀ n s1, State.generateEvals cfg o n { s with phase := .adaptive } = some s1 → s1.afterGenerate cfg o = some (a, s') →
        s'.log = s.log ∨ (∃ q, Event.restart q ∈ s'.log) ∨ ((o.giveUp = false ∨ (cfg.srbf ≠ none ∧ s.srbf ≠ none)) ∧
          ∃ ws, s'.log = s.log ++ [.generated ((List.range n).map o.pts) ws]) := by
      intro n s1 hg h
      rcases afterGenerate_first h with h1 | h1
      · rcases hgen n s1 hg with h2 | ⟨h2, ws, h3⟩
        · exact .inl (h1.trans h2)
        · exact .inr (.inr ⟨h2, ws, h1.trans h3⟩)
      · exact .inr (.inl h1)
    split at h
    · split at h
      · split at h
        · exact .inr (.inl (initProposal_restarted h))
        · simp only [Option.some.injEq, Prod.mk.injEq] at h
          rw [← h.2]; exact .inl rfl
      · simp only [Option.some.injEq, Prod.mk.injEq] at h
        rw [← h.2]; exact .inl rfl
    · rename_i hcv
      have hcv : s.converged = false := by simpa using hcv
      split at h
      · rename_i hq
        have hq : s.batchQueue = [] := by simpa using hq
        unfold State.adaptBranch at h
        simp only at h
        split at h
        · rename_i has
          split at h
          · simp at h
          · rename_i s1 hg
            rcases fin _ _ hg h with h1 | h1 | ⟨h1, h2⟩
            · exact .inl h1
            · exact .inr (.inl h1)
            · exact .inr (.inr ⟨by simpa using ht.1, ht.2, hcv, hq, .inl has, h1, by simpa [has] using h2⟩)
        · rename_i has
          split at h
          · rename_i hp
            split at h
            · simp at h
            · rename_i s1 hg
              rcases fin _ _ hg h with h1 | h1 | ⟨h1, h2⟩
              · exact .inl h1
              · exact .inr (.inl h1)
              · exact .inr (.inr ⟨by simpa using ht.1, ht.2, hcv, hq, .inr (by simpa using hp), h1, by simpa [has] using h2⟩)
          · rcases afterGenerate_first h with h1 | h1
            · exact .inl h1
            · exact .inr (.inl h1)
      · left
        split at h
        · exact initProposal_log h
        · exact adaptProposal_log (by simpa using h)

end Verif.Strategy

namespace Verif.Loop

open Verif.Num Verif.Utils Verif.Cand Verif.Design Verif.Strategy Verif.Spec Verif.Props

variable {d : ℕ} {L : Setup d}

/-- The minimum distance `dtol` of EI and LCB. (ei_strategy.py:70-75, lcb_strategy.py:70-75.) -/
def sepDist (m : Method) : ℝ :=
  match m with
  | .ei _ dtol => dtol
  | .lcb _ _ dtol => dtol
  | _ => 0

theorem Separating.pos {m : Method} (hm : Separating m) : 0 < sepDist m := by
  cases m with
  | srbf => exact absurd hm id
  | dycors => exact absurd hm id
  | ei tol dtol =>
    cases tol with
    | none => exact absurd hm id
    | some tol => exact hm.2
  | lcb kappa tol dtol => exact hm

theorem GenOf.dist (ok : ProbOk L.prob) (hm : Separating L.method) {s : State (Pt d)} {n : ℕ} {l : List (Pt d)}
    (h : GenOf L s n (some l)) : l.length = n ∧ (∀ x ∈ l, Separated (sepDist L.method) x (s.curX ++ s.Xpend)) ∧
      l.Pairwise fun x y => sepDist L.method ≤ eucl x y := by
  obtain ⟨k, X, fX, h1, h2, h3⟩ := h
  have hc : s.curX = X 0 :: List.ofFn fun i : Fin k => X i.succ := by rw [h1, List.ofFn_succ]
  revert hm h3
  cases L.method with
  | srbf => exact fun hm => absurd hm id
  | dycors => exact fun hm => absurd hm id
  | ei tol dtol =>
    rintro hm ⟨_, h, mean, std, runs, hn, hu, hg⟩
    cases tol with
    | none => exact absurd hm id
    | some tol =>
      obtain ⟨a, _, b, c, _⟩ := C30_separated L.prob ok mean std _ (X 0) _ s.Xpend dtol tol hm.2 hm.1 runs
        (fun r hr q i => hu r hr q i) l hg.symm
      exact ⟨a.trans hn, by rw [hc]; exact b, c⟩
  | lcb kappa tol dtol =>
    rintro hm ⟨_, h, mean, std, runs, hn, hu, hg⟩
    obtain ⟨a, _, b, c, _⟩ := C31_separated L.prob ok mean std kappa (X 0) _ s.Xpend dtol _ hm runs
        (fun r hr q i => hu r hr q i) l hg.symm
    exact ⟨a.trans hn, by rw [hc]; exact b, c⟩

theorem not_mem_of_append {α : Type} {a : α} {l l' m : List α} (h : a ∉ l') (e : l' = l ++ m) : a ∉ l :=
  fun ha => h (by rw [e]; exact List.mem_append_left _ ha)

/-- Every batch chosen by EI/LCB before the first restart keeps its distance from everything completed or in flight. -/
theorem LoopReach.far (ok : ProbOk L.prob) (hm : Separating L.method) {w : Sys (Pt d)} (h : LoopReach L w)
    (hn : ∀ q, Event.restart q ∉ w.st.log) (hd : ∀ q, Event.start q ∈ w.st.log → q.Nodup) :
    FreshRun w.st.log ∧ FarRun (fun x y => sepDist L.method ≤ eucl x y) w.st.log := by
  have hδ := hm.pos
  induction h with
  | create D hD =>
    have : (Sys.create L.cfg (oracleOf L D none)).st.log = [] ++ [.start (Sys.create L.cfg (oracleOf L D none)).st.batchQueue] := by
      simp [Sys.create, State.create]
    rw [this]
    exact ⟨FreshRun.concat (fun k e hk => by simp at hk) (hd _ (by rw [this]; simp)),
      FarRun.concat (fun k q ws hk => by simp at hk) fun q ws he => by simp at he⟩
  | @propose w w' D g hw hD hg hg' hs ih =>
    obtain ⟨a, s', h1, m, h2, h3⟩ := step_propose hs
    rcases proposeAction_first h1 with h4 | ⟨q, h4⟩ | ⟨c1, c2, c3, c4, c5, c6, ws, h4⟩
    · rw [h4] at h2
      obtain ⟨i1, i2⟩ := ih (fun q => not_mem_of_append (hn q) h2) fun q hq => hd q (by rw [h2]; exact List.mem_append_left _ hq)
      rw [h2]
      exact ⟨i1.plain h3, i2.quiet fun e he q ws hq => by have := h3 e he; rw [hq] at this; exact this⟩
    · exact absurd (by rw [h2]; exact List.mem_append_left _ h4) (hn q)
    · rw [h4, List.append_assoc] at h2
      obtain ⟨i1, i2⟩ := ih (fun q => not_mem_of_append (hn q) h2) fun q hq => hd q (by rw [h2]; exact List.mem_append_left _ hq)
      rw [h2, ← List.append_assoc]
      have hwp : wantsPoints L.cfg w.st := ⟨c1, c2, c3, c4, c5⟩
      have hgen := hg hwp
      have hsr := hgen.srbf hm
      cases g with
      | none => simp [oracleOf, hsr] at c6
      | some l =>
        obtain ⟨e1, e2, e3⟩ := hgen.dist ok hm
        have hpts : (List.range (if L.cfg.asynchronous then 1 else L.cfg.batchSize)).map (oracleOf L D (some l)).pts = l :=
          map_getD_range e1 _
        rw [hpts]
        have key : ∀ x ∈ l, ∀ y, y ∈ openPoints w.st.log ∨ y ∈ (completions w.st.log).map Prod.fst →
            sepDist L.method ≤ eucl x y := by
          rintro x hx y (ho | hc)
          · have hperm := (C05_xpend_partial hw.reach).2 (hw.reach.once i1).opens
            have h6 : y ∈ w.st.Xpend := hperm.mem_iff.mpr (hw.reach.book.opn.mem_iff.mp ho)
            exact e2 x hx y (List.mem_append_right _ h6)
          · obtain ⟨cur, f1, _, _, _, f2⟩ := C14_complete_partial hw.reach
            have f3 := f2 (.inr (.inl hsr))
            rw [currentRun_all i1] at f3
            rw [← f3, ← f1] at hc
            exact e2 x hx y (List.mem_append_left _ hc)
        have self : ∀ x ∈ l, ∀ y, y ∈ openPoints w.st.log ∨ y ∈ (completions w.st.log).map Prod.fst → x ≠ y := by
          rintro x hx y hy rfl
          have := key x hx x hy
          rw [eucl_self] at this
          linarith
        have nd : l.Nodup := e3.imp fun {x y} hxy heq => by
          rw [heq, eucl_self] at hxy; linarith
        refine ⟨(FreshRun.concat (e := .generated l ws) i1
            ⟨nd, fun x hx' => ⟨fun ho => self x hx' x (.inl ho) rfl, fun hc => self x hx' x (.inr hc) rfl⟩⟩).plain h3,
          (FarRun.concat i2 fun q ws' hq => ?_).quiet fun e he q ws hq => by have := h3 e he; rw [hq] at this; exact this⟩
        simp only [Event.generated.injEq] at hq
        rw [← hq.1]
        exact ⟨e3, key⟩
  | other op _ hop hs ih =>
    obtain ⟨m, h1, h2⟩ := step_plain hop hs
    obtain ⟨i1, i2⟩ := ih (fun q => not_mem_of_append (hn q) h1) fun q hq => hd q (by rw [h1]; exact List.mem_append_left _ hq)
    rw [h1]
    exact ⟨i1.plain h2, i2.quiet fun e he q ws hq => by have := h2 e he; rw [hq] at this; exact this⟩
  | @resume w _ ih =>
    have h1 : w.resumed.st.log = w.st.log ++ [.crashed w.inflight, .resumed (match w.st.phase with
      | .initial => w.st.Xpend
      | .adaptive => [])] := by
      simp only [Sys.resumed, State.resume, State.note, List.append_assoc, List.cons_append, List.nil_append]
      cases w.st.phase <;> rfl
    obtain ⟨i1, i2⟩ := ih (fun q => not_mem_of_append (hn q) h1) fun q hq => hd q (by rw [h1]; exact List.mem_append_left _ hq)
    rw [h1]
    refine ⟨i1.plain fun e he => ?_, i2.quiet fun e he q ws hq => ?_⟩
    · simp only [List.mem_cons, List.not_mem_nil, or_false] at he
      rcases he with rfl | rfl <;> trivial
    · simp only [List.mem_cons, List.not_mem_nil, or_false] at he
      rcases he with rfl | rfl <;> cases hq

end Verif.Loop
