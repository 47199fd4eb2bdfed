import Verif.Loop.Object
import Verif.Strategy.Keep
import Verif.Strategy.Ready
import Verif.Props.Surrogate
import Verif.Props.Regular
import Verif.Props.Units

/-! # The data of the surrogate object in the closed loop -/

namespace Verif.Loop

open Verif.Num Verif.Utils Verif.Cand Verif.Design Verif.Strategy Verif.Spec Verif.Props

variable {d : ℕ} {L : Setup d} {K : Obj d} {f : Pt d → Val}

/-! ## Calls of the surrogate -/

theorem dataOf_reset (c c' : List (Surrogate.Op d)) : dataOf d (c ++ .reset :: c') = dataOf d c' := by
  unfold dataOf
  rw [List.foldl_append, List.foldl_cons]

theorem dataOf_predict (c : List (Surrogate.Op d)) (x : Pt d) : dataOf d (c ++ [.predict x]) = dataOf d c := by
  rw [dataOf_snoc]

theorem accepted_vec (x : Pt d) (g : Surrogate.FIn) (v : ℝ) (hg : valuesOf g = some [v]) :
    accepted d (.vec (List.ofFn x)) g = some [(x, v)] := by
  simp only [accepted, pointsOf, List.length_ofFn, dite_true, hg]
  simp

theorem dataOf_addCall (c : List (Surrogate.Op d)) (x : Pt d) (v : Val) :
    dataOf d (c ++ [addCall x v]) = dataOf d c ++ [(x, ((v : ℚ) : ℝ))] := by
  rw [dataOf_snoc]
  simp only [addCall, accepted_vec x (.float ((v : ℚ) : ℝ)) ((v : ℚ) : ℝ) rfl, Option.getD_some]

theorem dataOf_known (c : List (Surrogate.Op d)) (E : List (Pt d × Val)) :
    dataOf d (c ++ E.map addKnown) = dataOf d c ++ E.map fun e => (e.1, ((e.2 : ℚ) : ℝ)) := by
  induction E using List.reverseRecOn with
  | nil => simp
  | append_singleton E e ih =>
    rw [List.map_append, ← List.append_assoc, List.map_singleton, dataOf_snoc, ih]
    simp only [addKnown, accepted_vec e.1 (.arr1 [((e.2 : ℚ) : ℝ)]) ((e.2 : ℚ) : ℝ) rfl, Option.getD_some, List.map_append, List.map_singleton, List.append_assoc]

/-- At an earlier prediction since the last `reset` there were more than `d` points, and they were `Bad`. -/
def Failed (Bad : List (Pt d) → Prop) (ops : List (Surrogate.Op d)) : Prop :=
  ∃ (o₁ : List (Surrogate.Op d)) (x : Pt d) (o₂ : List (Surrogate.Op d)), ops = o₁ ++ .predict x :: o₂ ∧ Surrogate.Op.reset ∉ o₂ ∧
    d < (dataOf d o₁).length ∧ Bad ((dataOf d o₁).map Prod.fst)

theorem failed_snoc {Bad : List (Pt d) → Prop} {c : List (Surrogate.Op d)} {op : Surrogate.Op d} (h : Failed Bad (c ++ [op])) :
    op ≠ .reset ∧ (Failed Bad c ∨ ∃ x, op = .predict x ∧ d < (dataOf d c).length ∧
      Bad ((dataOf d c).map Prod.fst)) := by
  obtain ⟨o₁, x, o₂, he, hr, hl, ho⟩ := h
  rcases List.eq_nil_or_concat o₂ with rfl | ⟨o₃, q, rfl⟩
  · have := List.append_inj' he rfl
    obtain ⟨rfl, h2⟩ := this
    simp only [List.cons.injEq, and_true] at h2
    subst h2
    exact ⟨by simp, .inr ⟨x, rfl, hl, ho⟩⟩
  · rw [List.concat_eq_append] at he hr
    have he' : c ++ [op] = (o₁ ++ .predict x :: o₃) ++ [q] := by rw [he]; simp
    obtain ⟨rfl, h2⟩ := List.append_inj' he' rfl
    simp only [List.cons.injEq, and_true] at h2
    subst h2
    refine ⟨fun h0 => hr (by simp [h0]), .inl ⟨o₁, x, o₃, rfl, fun h0 => hr (by simp [h0]), hl, ho⟩⟩

/-- Calls without prediction. -/
theorem failed_append {Bad : List (Pt d) → Prop} {c c' : List (Surrogate.Op d)} (h : Failed Bad (c ++ c')) (hc : ∀ x, Surrogate.Op.predict x ∉ c') :
    Surrogate.Op.reset ∉ c' ∧ Failed Bad c := by
  induction c' using List.reverseRecOn with
  | nil => exact ⟨by simp, by simpa using h⟩
  | append_singleton c' op ih =>
    rw [← List.append_assoc] at h
    obtain ⟨h1, h2 | ⟨x, rfl, _⟩⟩ := failed_snoc h
    · obtain ⟨h3, h4⟩ := ih h2 fun x hx => hc x (by simp [hx])
      exact ⟨by simp [h3, Ne.symm h1], h4⟩
    · exact absurd (by simp) (hc x)

/-! ## The history of the current run -/

theorem thisRun_plain {P : Type} [DecidableEq P] (l m : List (Event P)) (h : ∀ e ∈ m, (∀ q, e ≠ Event.start q) ∧ ∀ q, e ≠ Event.restart q) :
    thisRun (l ++ m) = thisRun l ++ m := by
  induction m using List.reverseRecOn with
  | nil => simp
  | append_singleton m e ih =>
    have he := h e (by simp)
    rw [← List.append_assoc, thisRun_concat, ih fun e' h' => h e' (by simp [h'])]
    cases e <;> first
      | exact absurd rfl (he.1 _)
      | exact absurd rfl (he.2 _)
      | simp [thisRunStep]

theorem designs_plain {P : Type} (m : List (Event P)) (h : ∀ e ∈ m, (∀ q, e ≠ Event.start q) ∧ ∀ q, e ≠ Event.restart q) :
    designs m = [] := by
  refine List.flatMap_eq_nil_iff.2 fun e he => ?_
  have := h e he
  cases e <;> first
    | exact absurd rfl (this.1 _)
    | exact absurd rfl (this.2 _)
    | rfl

/-- Entries other than starts and restarts. -/
def NoStart {P : Type} (m : List (Event P)) : Prop := ∀ e ∈ m, (∀ q, e ≠ Event.start q) ∧ ∀ q, e ≠ Event.restart q

theorem NoStart.one {P : Type} {e : Event P} (h1 : ∀ q, e ≠ .start q) (h2 : ∀ q, e ≠ .restart q) : NoStart [e] := by
  intro e' h
  simp only [List.mem_singleton] at h
  subst h
  exact ⟨h1, h2⟩

theorem NoStart.nil {P : Type} : NoStart ([] : List (Event P)) := by simp [NoStart]

theorem NoStart.append {P : Type} {l m : List (Event P)} (h1 : NoStart l) (h2 : NoStart m) : NoStart (l ++ m) := by
  intro e he
  rcases List.mem_append.mp he with h | h
  · exact h1 e h
  · exact h2 e h

theorem OnlyGenerated.noStart {P : Type} {m : List (Event P)} (h : OnlyGenerated m) : NoStart m := by
  intro e he
  obtain ⟨q, ws, rfl⟩ := h e he
  exact ⟨by simp, by simp⟩

/-- What an event does to the log, the data and the calls. -/
inductive Moved (L : Setup d) (W W' : ObjSys d) (e : Ev d) : Prop
  /-- no restart: the data `add` are added -/
  | same (m : List (Event (Pt d))) (pre : List (Surrogate.Op d)) (add : List (Pt d × Val))
      (hl : W'.sys.st.log = W.sys.st.log ++ m) (hm : NoStart m) (hs : W'.sys.st.surr = W.sys.st.surr ++ add)
      (hx : W'.sys.st.curX = W.sys.st.curX ++ add.map Prod.fst)
      (hpre : pre = [] ∨ pre = [.predict L.prob.lb] ∧ wantsPoints L.cfg W.sys.st ∧ ∃ r, e = .propose r)
      (hc : W'.calls = W.calls ++ pre ++ add.map fun e => addCall e.1 e.2)
  /-- a restart with design `r.design` -/
  | restart (r : Rnd d) (he : e = .propose r) (q : List (Pt d)) (ev ev' : List (Event (Pt d))) (pre : List (Surrogate.Op d))
      (hl : W'.sys.st.log = W.sys.st.log ++ ev ++ [.restart q] ++ ev') (hm : NoStart ev')
      (hq : (List.range L.cfg.numPts).map (fun i => r.design.getD i L.prob.lb) ⊆ q)
      (hs : W'.sys.st.surr = if W.sys.st.X = [] then knownExtras L.cfg else [])
      (hpre : pre = [] ∨ pre = [.predict L.prob.lb] ∧ wantsPoints L.cfg W.sys.st ∧ ∃ r, e = .propose r)
      (hc : W'.calls = W.calls ++ pre ++ sampleCalls L.cfg W.sys.st)

theorem objStep_moved {W W' : ObjSys d} {e : Ev d} (h : objStep L K f W e = some W') : Moved L W W' e := by
  simp only [objStep, Option.map_eq_some_iff] at h
  obtain ⟨w', hw, rfl⟩ := h
  cases e with
  | propose r =>
    simp only [loopStep, Option.bind_eq_some_iff] at hw
    obtain ⟨g, hg, hw⟩ := hw
    obtain ⟨a, s', ha, hst, m1, hm1, hlog⟩ : ∃ a s', W.sys.st.proposeAction L.cfg (oracleOf L r.design g) = some (a, s') ∧
        (w'.st.surr = s'.surr ∧ w'.st.curX = s'.curX) ∧ ∃ m1, NoStart m1 ∧ w'.st.log = s'.log ++ m1 := by
      simp only [Sys.step] at hw
      split at hw
      · cases hw
      · rename_i x k s hs
        cases hw
        exact ⟨_, _, hs, ⟨rfl, rfl⟩, [_], .one (by simp) (by simp), rfl⟩
      · rename_i s hs
        cases hw
        exact ⟨_, _, hs, ⟨rfl, rfl⟩, [_], .one (by simp) (by simp), rfl⟩
      · rename_i s hs
        cases hw
        exact ⟨_, _, hs, ⟨rfl, rfl⟩, [], .nil, by simp⟩
    have hpre : ∀ pre : List (Surrogate.Op d),
        pre = (@ite _ (wantsPoints L.cfg W.sys.st) (Classical.propDecidable _) [Surrogate.Op.predict L.prob.lb] []) →
        pre = [] ∨ pre = [.predict L.prob.lb] ∧ wantsPoints L.cfg W.sys.st ∧ ∃ r', Ev.propose r = .propose r' := by
      intro pre hp
      split_ifs at hp with hw
      · exact .inr ⟨hp, hw, r, rfl⟩
      · exact .inl hp
    cases proposeAction_kept ha with
    | same m hl hm hs hx hq =>
      have hno : NoStart (m ++ m1) := (OnlyGenerated.noStart hm).append hm1
      have hlog' : w'.st.log = W.sys.st.log ++ (m ++ m1) := by rw [hlog, hl, List.append_assoc]
      have hr : ¬ restartedSince W.sys.st w'.st := by
        rintro ⟨q, hq⟩
        rw [hlog', List.drop_left] at hq
        exact (hno _ hq).2 q rfl
      refine .same (m ++ m1) _ [] hlog' hno (by simp [hst.1, hs]) (by simp [hst.2, hx]) (hpre _ rfl) ?_
      simp only [callsOf, if_neg hr, List.append_nil, List.map_nil]
    | restart m q hd hl hm hs hx hq =>
      have hlog' : w'.st.log = W.sys.st.log ++ m ++ [.restart q] ++ m1 := by rw [hlog, hl]
      have hr : restartedSince W.sys.st w'.st := ⟨q, by rw [hlog']; simp⟩
      refine .restart r rfl q m m1
        (@ite _ (wantsPoints L.cfg W.sys.st) (Classical.propDecidable _) [Surrogate.Op.predict L.prob.lb] []) hlog' hm1 ?_
        (by rw [hst.1, hs]) (hpre _ rfl) ?_
      · rw [hd]
        exact List.subset_append_left _ _
      · simp only [callsOf, if_pos hr]
        rw [List.append_assoc]
  | complete i =>
    simp only [loopStep, Option.bind_eq_some_iff, Sys.step] at hw
    obtain ⟨r, hr, hw⟩ := hw
    rw [hr] at hw
    simp only [Option.some.injEq] at hw
    subst hw
    obtain ⟨h1, h2, _, m, h4, h5⟩ := onCompleted_kept (cfg := L.cfg) (W.sys.st.note (.completed r.x r.kind (f r.x) r.accAt)) r.x
      r.kind (f r.x) r.evId
    have hno : NoStart ([Event.completed r.x r.kind (f r.x) r.accAt] ++ m) := by
      refine (NoStart.one (by simp) (by simp)).append fun e he => ?_
      rcases h5 e he with ⟨g, rfl⟩ | rfl <;> exact ⟨by simp, by simp⟩
    have hl : (State.onCompleted L.cfg (W.sys.st.note (.completed r.x r.kind (f r.x) r.accAt)) r.x r.kind (f r.x) r.evId).log =
        W.sys.st.log ++ ([Event.completed r.x r.kind (f r.x) r.accAt] ++ m) := by
      rw [h4, ← List.append_assoc]; rfl
    by_cases hev : r.evId > W.sys.st.evLast
    · refine .same _ [] [(r.x, f r.x)] hl hno ?_ ?_ (.inl rfl) ?_
      · show (State.onCompleted _ _ _ _ _ _).surr = _
        rw [h1]
        exact if_pos hev
      · show (State.onCompleted _ _ _ _ _ _).curX = _
        rw [h2]
        exact if_pos hev
      · simp only [callsOf, hr, List.append_nil, List.map_cons, List.map_nil]
        rw [if_pos hev]
    · refine .same _ [] [] hl hno ?_ ?_ (.inl rfl) ?_
      · show (State.onCompleted _ _ _ _ _ _).surr = _
        rw [h1, List.append_nil]
        exact if_neg hev
      · show (State.onCompleted _ _ _ _ _ _).curX = _
        rw [h2, List.map_nil, List.append_nil]
        exact if_neg hev
      · simp only [callsOf, hr, List.append_nil, List.map_nil]
        rw [if_neg hev, List.append_nil]
  | accept i =>
    simp only [loopStep, Sys.step] at hw
    split at hw
    · cases hw
    · cases hw
      exact .same [_] [] [] rfl (.one (by simp) (by simp)) (List.append_nil _).symm (List.append_nil _).symm (.inl rfl) (by simp [callsOf])
  | reject i =>
    simp only [loopStep, Sys.step] at hw
    split at hw
    · cases hw
    · rename_i p hp
      cases hw
      obtain ⟨x, k⟩ := p
      cases k with
      | init =>
        refine .same [.rejected x .init] [] [] ?_ (.one (by simp) (by simp)) ?_ ?_ (.inl rfl) (by simp [callsOf])
        all_goals simp [State.onInitialRejected, State.note, State.removePending]
      | adapt =>
        refine .same [.rejected x .adapt] [] [] ?_ (.one (by simp) (by simp)) ?_ ?_ (.inl rfl) (by simp [callsOf])
        all_goals
          simp only [State.onAdaptReject, State.note, State.removePending]
          split <;> simp
  | abort i =>
    simp only [loopStep, Sys.step] at hw
    split at hw
    · cases hw
    · rename_i r hr
      cases hw
      obtain ⟨x, k, ev, ac⟩ := r
      refine .same [.aborted x k] [] [] ?_ (.one (by simp) (by simp)) ?_ ?_ (.inl rfl) (by simp [callsOf])
      all_goals cases k <;> simp [State.onAborted, State.note, State.removePending]
  | update i =>
    simp only [loopStep, Sys.step] at hw
    split at hw
    · cases hw
    · cases hw
      exact .same [] [] [] (by simp) .nil (by simp) (by simp) (.inl rfl) (by simp [callsOf])
  | resume =>
    simp only [loopStep, Option.some.injEq] at hw
    subst hw
    obtain ⟨rq, hrq⟩ : ∃ rq, W.sys.resumed.st.log = W.sys.st.log ++ [.crashed W.sys.inflight, .resumed rq] :=
      ⟨_, by simp only [Sys.resumed, State.resume, State.note, List.append_assoc]; rfl⟩
    refine .same [.crashed W.sys.inflight, .resumed rq] [] [] hrq ?_ ?_ ?_ (.inl rfl) (by simp [callsOf])
    · exact (NoStart.one (e := .crashed W.sys.inflight) (by simp) (by simp)).append (.one (by simp) (by simp))
    · simp [Sys.resumed, State.resume, State.note]
    · simp [Sys.resumed, State.resume, State.note]

end Verif.Loop
