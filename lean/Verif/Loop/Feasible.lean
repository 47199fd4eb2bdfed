import Verif.Loop.Model
import Mathlib.Data.List.GetD
import Verif.Props.Strategy
import Verif.Props.Design
import Verif.Props.Acquisition

/-! # All points generated in the closed loop are feasible -/

namespace Verif.Loop

open Verif.Num Verif.Utils Verif.Cand Verif.Design Verif.Strategy Verif.Spec Verif.Props

variable {d : ℕ} {L : Setup d}

theorem _root_.Verif.Props.ProbOk.lb_feasible {p : OptProb d} (ok : ProbOk p) : Feasible p p.lb :=
  ⟨fun i => ⟨le_rfl, (ok.lt i).le⟩, ok.lbInt⟩

theorem _root_.Verif.Props.ProbOk.hint {p : OptProb d} (ok : ProbOk p) : ∀ i ∈ p.intVar, ∃ l u : ℤ, p.lb i = l ∧ p.ub i = u := by
  intro i hi
  obtain ⟨l, hl⟩ := ok.lbInt i hi
  obtain ⟨u, hu⟩ := ok.ubInt i hi
  exact ⟨l, u, hl, hu⟩

theorem DesignOf.spec {p : OptProb d} (ok : ProbOk p) {n : ℕ} {D : List (Pt d)} (h : DesignOf p n D) :
    D.length = n ∧ D.Nodup ∧ ∀ x ∈ D, Feasible p x := by
  rcases h with ⟨hn, rnd, X, hX, rfl⟩ | ⟨rnd, X, hr, hX, rfl⟩ | ⟨hd, rfl⟩
  · refine ⟨by simp, ?_, ?_⟩
    · have := ((C45_select _ _ _).1 X hX).2.1.1
      rw [List.nodup_ofFn]
      intro i j hij; by_contra hne; exact this i j hne hij
    · intro x hx
      obtain ⟨i, rfl⟩ := (List.mem_ofFn' _ _).mp hx
      exact C45_slhd hn p.lb p.ub p.intVar ok.lt ok.hint rnd X hX i
  · refine ⟨by simp, ?_, ?_⟩
    · have := ((C45_select _ _ _).1 X hX).2.1.1
      rw [List.nodup_ofFn]
      intro i j hij; by_contra hne; exact this i j hne hij
    · intro x hx
      obtain ⟨i, rfl⟩ := (List.mem_ofFn' _ _).mp hx
      exact C45_lhd p.lb p.ub p.intVar ok.lt ok.hint rnd hr X hX i
  · obtain ⟨h1, h2, h3⟩ := C44_box p.lb p.ub p.intVar ok.lt ok.hint
    refine ⟨?_, h2, fun x hx => ?_⟩
    · rw [h1]
      unfold twoFactorialInit at hd
      split at hd
      · simp at hd
      · simpa using hd
    · have hc := (h3 x).mp hx
      refine ⟨fun i => ?_, fun i hi => ?_⟩
      · have := (ok.lt i).le
        rcases hc i with h | h <;> rw [h] <;> constructor <;> first | exact le_rfl | exact this
      · obtain ⟨l, u, hl, hu⟩ := ok.hint i hi
        rcases hc i with h | h
        · exact ⟨l, by rw [h, hl]⟩
        · exact ⟨u, by rw [h, hu]⟩

theorem getD_feasible {p : OptProb d} (ok : ProbOk p) {D : List (Pt d)} (h : ∀ x ∈ D, Feasible p x) (i : ℕ) :
    Feasible p (D.getD i p.lb) := by
  by_cases hi : i < D.length
  · rw [List.getD_eq_getElem _ _ hi]; exact h _ (List.getElem_mem hi)
  · rw [List.getD_eq_default _ _ (by omega)]; exact ok.lb_feasible

/-- What is generated from feasible data is feasible. -/
theorem GenOf.feasible (ok : ProbOk L.prob) {s : State (Pt d)} {n : ℕ} {g : Option (List (Pt d))}
    (hr : ∀ z, s.srbf = some z → 0 < z.radius) (hX : ∀ x ∈ s.curX, Feasible L.prob x) (h : GenOf L s n g) :
    ∀ l, g = some l → ∀ x ∈ l, Feasible L.prob x := by
  obtain ⟨k, X, fX, h1, h2, h3⟩ := h
  have hX' : ∀ i, Feasible L.prob (X i) := fun i => hX _ (by rw [h1]; exact (List.mem_ofFn' _ _).mpr ⟨i, rfl⟩)
  have hpos : ∀ z, s.srbf = some z → (0 : ℝ) < ((z.radius : ℚ) : ℝ) := fun z hz => by exact_mod_cast hr z hz
  intro l hl
  split at h3
  · obtain ⟨sc, z, ws, next, _, hz, _, m, pred, draws, hd, rfl⟩ := h3
    rw [Option.some.injEq] at hl; subst hl
    exact C26_srbf L.prob ok pred X fX _ _ _ (hpos z hz) _ _ (.inl hX') draws hd
  · obtain ⟨sc, z, ws, next, _, hz, _, m, pred, u, forced, draws, prob, res, _, _, hd, hres, rfl⟩ := h3
    rw [Option.some.injEq] at hl; subst hl
    obtain ⟨res', h4, _, h5⟩ := C26_dycors L.prob ok pred X (ws.map fun v => ((v : ℚ) : ℝ)) prob s.Xpend _ (hpos z hz)
      1e-3 (xbestOf X fX) (hX' _) u forced draws hd
    rw [h4, Option.some.injEq] at hres
    subst hres; exact h5
  · obtain ⟨_, h, mean, std, runs, _, hu, rfl⟩ := h3
    obtain ⟨h5, h6⟩ := eiGaLoop_spec ok _ _ runs (fun r hr q i => hu r hr q i) _ l hl
    intro x hx
    obtain ⟨i, hi, rfl⟩ := List.getElem_of_mem hx
    exact (h6 i hi).1
  · obtain ⟨_, h, mean, std, runs, _, hu, rfl⟩ := h3
    obtain ⟨h5, h6⟩ := lcbGaLoop_spec ok _ _ runs (fun r hr q i => hu r hr q i) _ l hl
    intro x hx
    obtain ⟨i, hi, rfl⟩ := List.getElem_of_mem hx
    exact (h6 i hi).1

theorem LoopReach.reach {w : Sys (Pt d)} (h : LoopReach L w) : Reach L.cfg w := by
  induction h with
  | create D _ => exact .create _
  | propose D g _ _ _ _ hs ih => exact .step _ ih hs
  | other op _ _ hs ih => exact .step _ ih hs
  | resume _ ih => exact .resume ih

theorem radius_pos (hbs : BatchOk L.cfg) {w : Sys (Pt d)} (h : Reach L.cfg w) : ∀ z, w.st.srbf = some z → 0 < z.radius := by
  intro z hz
  cases hsc : L.cfg.srbf with
  | none =>
    have := h.book.srbf
    simp [hsc, hz] at this
  | some sc =>
    obtain ⟨z', k, h1, h2, _⟩ := C21_radius_partial hsc hbs h
    rw [hz, Option.some.injEq] at h1
    subst h1
    rw [h2]; positivity

theorem LoopReach.reachF (ok : ProbOk L.prob) (hbs : BatchOk L.cfg) (hx : ∀ e ∈ L.cfg.extras, Feasible L.prob e.1)
    {w : Sys (Pt d)} (h : LoopReach L w) : ReachF L.cfg (Feasible L.prob) w := by
  induction h with
  | create D hD => exact .create _ fun i => getD_feasible ok (hD.spec ok).2.2 i
  | @propose w w' D g hw hD hg hg' hs ih =>
    refine .propose _ (fun i => getD_feasible ok (hD.spec ok).2.2 i) (fun i => ?_) ih hs
    refine getD_feasible ok (fun x hx' => ?_) i
    by_cases hwp : wantsPoints L.cfg w.st
    · cases g with
      | none => simp at hx'
      | some l =>
        refine (hg hwp).feasible ok (radius_pos hbs hw.reach) (fun y hy => ?_) l rfl x hx'
        obtain ⟨cur, h1, h2, _⟩ := C13_isolation hw.reach
        have h3 := (C62_feasible hx ih).2.2.2.2
        refine h3 y ?_
        rw [(C03_history hw.reach).1, List.map_append]
        refine List.mem_append_right _ ?_
        rw [h2] at hy
        obtain ⟨e, he, rfl⟩ := List.mem_map.mp hy
        refine List.mem_map_of_mem ?_
        have := h1.subset he
        obtain ⟨ev, he1, he2⟩ := List.mem_filterMap.mp this
        refine List.mem_filterMap.mpr ⟨ev, he1, ?_⟩
        cases ev <;> simp at he2 ⊢
        obtain ⟨_, rfl⟩ := he2
        rfl
    · rw [hg' hwp] at hx'; simp at hx'
  | other op _ hop hs ih => exact .other op hop ih hs
  | resume _ ih => exact .resume ih

end Verif.Loop
