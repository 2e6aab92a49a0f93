import Verif.Model.PySccs
import Verif.Lemmas.Sccs

/-
The iterative algorithm of sccs.py does the same as the recursive one of sccs.cc.
-/
namespace Verif.PySccs

/-- corresponding states: numbers are greater by one in Python -/
structure Rel (s : Sccs.St) (p : St) : Prop where
  ind : ∀ v, (s.num v = -1 ∧ p.indices v = none) ∨ ∃ k : Nat, s.num v = (k : Int) ∧ p.indices v = some (k + 1)
  low : ∀ v, s.num v ≠ -1 → p.low v = s.low v + 1
  idx : ∀ v, (s.idx v = -1 ∧ p.stackIdx v = none) ∨ ∃ k : Nat, s.idx v = (k : Int) ∧ p.stackIdx v = some k
  cnt : s.counter = (p.current : Int)
  stack : p.stack = s.stack
  sccs : p.sccs = s.sccs
  stN : ∀ u ∈ s.stack, s.num u ≠ -1
  stI : ∀ u ∈ s.stack, s.idx u ≠ -1
  nodup : s.stack.Nodup

/-- work that is left -/
def left (graph : List (List Nat)) (s : Sccs.St) : Nat := (graph.zipIdx.map (fun x => if s.num x.2 = -1 then 2 * x.1.length + 2 else 0)).sum

variable {graph : List (List Nat)}

theorem sum_point {l : List (List Nat × Nat)} (hl : (l.map (·.2)).Nodup) {f g : List Nat × Nat → Nat} {a : List Nat × Nat} {c : Nat} (ha : a ∈ l) (h1 : f a = g a + c) (h2 : ∀ x ∈ l, x.2 ≠ a.2 → f x = g x) :
    (l.map f).sum = (l.map g).sum + c := by
  induction l with
  | nil => simp at ha
  | cons b l ih =>
    rw [List.map_cons, List.nodup_cons] at hl
    simp only [List.map_cons, List.sum_cons]
    rcases List.mem_cons.mp ha with rfl | ha'
    · have : l.map f = l.map g := by
        refine List.map_congr_left (fun x hx => h2 x (List.mem_cons_of_mem _ hx) (fun e => hl.1 ?_))
        rw [← e]
        exact List.mem_map_of_mem hx
      rw [this, h1]
      omega
    · have hb : f b = g b := h2 b (List.mem_cons_self ..) (fun e => hl.1 (by rw [e]; exact List.mem_map_of_mem ha'))
      rw [ih hl.2 ha' (fun x hx => h2 x (List.mem_cons_of_mem _ hx)), hb]
      omega

theorem left_enter {s : Sccs.St} {v : Nat} {succs : List Nat} (hv : graph[v]? = some succs) (hn : s.num v = -1) (hc : 0 ≤ s.counter) :
    left graph s = left graph (Sccs.enter v s) + (2 * succs.length + 2) := by
  unfold left
  refine sum_point (a := (succs, v)) ?_ (List.mem_zipIdx_iff_getElem?.mpr hv) ?_ ?_
  · rw [List.zipIdx_map_snd]
    exact List.nodup_range'
  · have : (Sccs.enter v s).num v = s.counter := by simp [Sccs.enter, Sccs.upd]
    simp only [hn, this, if_true]
    rw [if_neg (by omega)]
    omega
  · intro x _ hx
    have : (Sccs.enter v s).num x.2 = s.num x.2 := by
      simp only [Sccs.enter, Sccs.upd]
      rw [if_neg hx]
    rw [this]

theorem left_num {s s' : Sccs.St} (h : s.num = s'.num) : left graph s = left graph s' := by
  unfold left
  rw [h]

theorem rel_enter {s : Sccs.St} {p : St} {v : Nat} (h : Rel s p) (hn : s.num v = -1) : Rel (Sccs.enter v s) (enter v p) where
  ind := by
    intro u
    simp only [Sccs.enter, Sccs.upd, enter, upd]
    by_cases hu : u = v
    · right
      exact ⟨p.current, by simp [hu, h.cnt], by simp [hu]⟩
    · simp only [hu, if_false]
      exact h.ind u
  low := by
    intro u hu
    simp only [Sccs.enter, Sccs.upd, enter, upd] at hu ⊢
    by_cases hv : u = v
    · simp only [hv, if_true, h.cnt]
      omega
    · simp only [hv, if_false] at hu ⊢
      exact h.low u hu
  idx := by
    intro u
    simp only [Sccs.enter, Sccs.upd, enter, upd]
    by_cases hu : u = v
    · right
      exact ⟨s.stack.length, by simp [hu], by simp [hu, h.stack]⟩
    · simp only [hu, if_false]
      exact h.idx u
  cnt := by simp [Sccs.enter, enter, h.cnt]
  stack := by simp [Sccs.enter, enter, h.stack]
  sccs := h.sccs
  stN := by
    intro u hu
    have hc := h.cnt
    simp only [Sccs.enter, Sccs.upd, List.mem_append, List.mem_singleton] at hu ⊢
    by_cases hv : u = v
    · simp only [hv, if_true]
      omega
    · simp only [hv, if_false, or_false] at hu ⊢
      exact h.stN u hu
  stI := by
    intro u hu
    simp only [Sccs.enter, Sccs.upd, List.mem_append, List.mem_singleton] at hu ⊢
    by_cases hv : u = v
    · simp only [hv, if_true]
      omega
    · simp only [hv, if_false, or_false] at hu ⊢
      exact h.stI u hu
  nodup := by
    simp only [Sccs.enter]
    refine List.nodup_append.mpr ⟨h.nodup, by simp, fun a ha b hb => ?_⟩
    rw [List.mem_singleton] at hb
    rintro rfl
    subst hb
    exact h.stN _ ha hn

theorem rel_low {s : Sccs.St} {p : St} {v : Nat} {a b : Int} (h : Rel s p) (hab : b = a + 1) : Rel { s with low := Sccs.upd s.low v a } { p with low := upd p.low v b } where
  ind := h.ind
  low := by
    intro u hu
    simp only [Sccs.upd, upd]
    split
    · exact hab
    · exact h.low u hu
  idx := h.idx
  cnt := h.cnt
  stack := h.stack
  sccs := h.sccs
  stN := h.stN
  stI := h.stI
  nodup := h.nodup

/-- the last step for a vertex -/
theorem rel_close {s : Sccs.St} {p : St} {v k : Nat} (h : Rel s p) (hk : s.num v = (k : Int)) (hst : v ∈ s.stack) : ∃ p', leave v p = some p' ∧ Rel (Sccs.close v (k : Int) s) p' := by
  have hi : p.indices v = some (k + 1) := by
    rcases h.ind v with ⟨a, _⟩ | ⟨k', a, b⟩
    · omega
    · rw [b]
      congr
      omega
  have hl := h.low v (by omega)
  unfold leave Sccs.close
  simp only [hi]
  by_cases hlow : s.low v = (k : Int)
  · rw [if_pos (by rw [hl, hlow]; omega), if_pos hlow]
    rcases h.idx v with ⟨a, _⟩ | ⟨j, a, b⟩
    · exact absurd a (h.stI v hst)
    · unfold finish
      simp only [b, h.stack, a, Int.toNat_natCast]
      have hall : (s.stack.drop j).all (fun n => (p.stackIdx n).isSome) = true := by
        rw [List.all_eq_true]
        intro n hn
        rcases h.idx n with ⟨c, _⟩ | ⟨_, _, d⟩
        · exact absurd c (h.stI n (List.mem_of_mem_drop hn))
        · rw [d]; rfl
      rw [if_pos hall]
      refine ⟨_, rfl, ?_⟩
      exact {
        ind := h.ind
        low := h.low
        idx := by
          intro u
          simp only
          by_cases hu : u ∈ s.stack.drop j
          · left; simp [hu]
          · simp only [hu, if_false]
            exact h.idx u
        cnt := h.cnt
        stack := rfl
        sccs := by simp [h.sccs]
        stN := fun u hu => h.stN u (List.mem_of_mem_take hu)
        stI := by
          intro u hu
          have hnd : u ∉ s.stack.drop j := by
            intro hd
            have hn := h.nodup
            rw [← List.take_append_drop j s.stack, List.nodup_append] at hn
            exact hn.2.2 u hu u hd rfl
          simp only [hnd, if_false]
          exact h.stI u (List.mem_of_mem_take hu)
        nodup := h.nodup.sublist (List.take_sublist _ _) }
  · rw [if_neg (by rw [hl]; omega), if_neg hlow]
    exact ⟨p, rfl, h⟩

/-- what a call does not change -/
structure Ext (s s' : Sccs.St) : Prop where
  old : ∀ u, s.num u ≠ -1 → s'.num u = s.num u ∧ s'.low u = s.low u

theorem close_num (v : Nat) (vn : Int) (s : Sccs.St) : (Sccs.close v vn s).num = s.num ∧ (Sccs.close v vn s).low = s.low ∧ (Sccs.close v vn s).counter = s.counter := by
  unfold Sccs.close
  split <;> simp

theorem run_succ (k : Nat) (f : Frame) (fs : List Frame) (p : St) : run graph (1 + k) (f :: fs) p = match step graph f fs p with | none => none | some (fs', p') => run graph k fs' p' := by
  rw [Nat.add_comm, run]
  cases step graph f fs p <;> rfl

/-- what was on the stack stays there -/
structure Pre (s s' : Sccs.St) : Prop where
  pre : s.stack <+: s'.stack
  idx : ∀ u ∈ s.stack, s'.idx u = s.idx u

theorem Pre.refl (s : Sccs.St) : Pre s s := ⟨List.prefix_refl _, fun _ _ => rfl⟩

theorem Pre.trans {a b c : Sccs.St} (h1 : Pre a b) (h2 : Pre b c) : Pre a c :=
  ⟨h1.pre.trans h2.pre, fun u hu => (h2.idx u (h1.pre.subset hu)).trans (h1.idx u hu)⟩

/-- the loop over successors, given that calls are simulated -/
theorem visit_sim {fuel : Nat} (ih : ∀ (w : Nat) (s : Sccs.St) (p : St) (s' : Sccs.St), s.num w = -1 → Rel s p → Sccs.dfs graph fuel w s = some s' →
      ∃ c p', c + left graph s' ≤ left graph s ∧ Rel s' p' ∧ Ext s s' ∧ s'.num w ≠ -1 ∧ Pre s s' ∧
        ∀ k fs, run graph (c + k) (.begin w :: fs) p = run graph k fs p')
    {v n : Nat} {succs : List Nat} (hv : graph[v]? = some succs) :
    ∀ (ws : List Nat) (i : Nat) (s : Sccs.St) (p : St) (s' : Sccs.St), succs.drop i = ws → i ≤ succs.length → s.num v = (n : Int) → s.low v ≤ (n : Int) → Rel s p →
      Sccs.visit graph fuel v (n : Int) ws s = some s' →
      ∃ c p', c + left graph s' ≤ left graph s + 2 * ws.length ∧ Rel s' p' ∧ (∀ u, u ≠ v → s.num u ≠ -1 → s'.num u = s.num u ∧ s'.low u = s.low u) ∧ s'.num v = (n : Int) ∧ s'.low v ≤ (n : Int) ∧ Pre s s' ∧
        ∀ k fs, run graph (c + k) (.cont v i :: fs) p = run graph k (.cont v succs.length :: fs) p'
  | [], i, s, p, s', hd, hi, hn, hl, hr, h => by
    rw [Sccs.visit] at h
    cases h
    have : i = succs.length := by
      have := List.drop_eq_nil_iff.mp hd
      omega
    subst this
    exact ⟨0, p, by simp, hr, fun _ _ _ => ⟨rfl, rfl⟩, hn, hl, Pre.refl s, fun k fs => by rw [Nat.zero_add]⟩
  | w :: ws, i, s, p, s', hd, hi, hn, hl, hr, h => by
    have hilt : i < succs.length := by
      by_contra hc
      rw [List.drop_eq_nil_of_le (by omega)] at hd
      cases hd
    have hget : succs[i]? = some w := by
      have := List.head?_drop (l := succs) (i := i)
      rw [hd] at this
      simpa using this.symm
    have hd' : succs.drop (i + 1) = ws := by
      rw [← List.drop_drop, hd]
      rfl
    rw [Sccs.visit] at h
    split at h
    · cases h
    · split at h
      · -- a new vertex
        rename_i _ hw
        obtain ⟨s1, h1, h2⟩ := Option.bind_eq_some_iff.mp h
        obtain ⟨c1, p1, b1, r1, e1, _, q1, g1⟩ := ih w s p s1 hw hr h1
        have hv1 := e1.old v (by omega)
        have hw' : w ≠ v := by
          rintro rfl
          omega
        have hlw : p1.low v = s1.low v + 1 := r1.low v (by omega)
        have hlw2 : p1.low w = s1.low w + 1 := r1.low w (by assumption)
        obtain ⟨c2, p2, b2, r2, e2, n2, l2, q2, g2⟩ := visit_sim ih hv ws (i + 1) { s1 with low := Sccs.upd s1.low v (min (s1.low v) (s1.low w)) } { p1 with low := upd p1.low v (min (p1.low v) (p1.low w)) } s'
          hd' (by omega) (by simp only; omega) (by simp only [Sccs.upd, if_true]; omega) (rel_low r1 (by rw [hlw, hlw2]; omega)) h2
        refine ⟨1 + (c1 + (1 + c2)), p2, ?_, r2, ?_, n2, l2, q1.trans ⟨q2.pre, q2.idx⟩, ?_⟩
        · have : left graph { s1 with low := Sccs.upd s1.low v (min (s1.low v) (s1.low w)) } = left graph s1 := rfl
          rw [this] at b2
          simp only [List.length_cons]
          omega
        · intro u hu hu2
          obtain ⟨x1, x2⟩ := e1.old u hu2
          obtain ⟨y1, y2⟩ := e2 u hu (by simp only; omega)
          simp only [Sccs.upd, hu, if_false] at y1 y2
          exact ⟨y1.trans x1, y2.trans x2⟩
        · intro k fs
          have hind : p.indices w = none := by
            rcases hr.ind w with ⟨_, b⟩ | ⟨k', a, _⟩
            · exact b
            · omega
          rw [show 1 + (c1 + (1 + c2)) + k = 1 + (c1 + (1 + (c2 + k))) by omega, run_succ]
          simp only [step, continueAt, hv, hget, hind]
          rw [if_neg (by omega)]
          simp only
          rw [g1, run_succ]
          simp only [step]
          rw [g2]
      · rename_i _ hw
        obtain ⟨kw, hkw, hpw⟩ : ∃ k : Nat, s.num w = (k : Int) ∧ p.indices w = some (k + 1) := by
          rcases hr.ind w with ⟨a, _⟩ | h
          · exact absurd a hw
          · exact h
        have hlv : p.low v = s.low v + 1 := hr.low v (by omega)
        -- the state after this successor
        have key : ∃ s1, Sccs.visit graph fuel v (n : Int) ws s1 = some s' ∧ s1.num = s.num ∧ s1.stack = s.stack ∧ s1.idx = s.idx ∧ (∀ u, u ≠ v → s1.low u = s.low u) ∧ s1.low v ≤ (n : Int) ∧ Rel s1 (seen v w (kw + 1) p) := by
          unfold seen
          split at h
          · rename_i hc
            obtain ⟨j, _, hj⟩ : ∃ k : Nat, s.idx w = (k : Int) ∧ p.stackIdx w = some k := by
              rcases hr.idx w with ⟨a, _⟩ | h
              · exact absurd a hc.2
              · exact h
            refine ⟨_, h, rfl, rfl, rfl, fun u hu => by simp [Sccs.upd, hu], by simp only [Sccs.upd, if_true]; omega, ?_⟩
            simp only [hj]
            exact rel_low hr (by rw [hlv, hkw]; omega)
          · rename_i hc
            refine ⟨s, h, rfl, rfl, rfl, fun _ _ => rfl, hl, ?_⟩
            rcases hr.idx w with ⟨_, b⟩ | ⟨j, a, b⟩
            · simp only [b]
              exact hr
            · simp only [b]
              have hge : ¬ s.num w < (n : Int) := fun hlt => hc ⟨hlt, by omega⟩
              have hsame : upd p.low v (min (p.low v) ((kw + 1 : Nat) : Int)) = p.low := by
                funext u
                simp only [upd]
                split
                · rename_i hu
                  subst hu
                  rw [hlv]
                  omega
                · rfl
              rw [hsame]
              exact hr
        obtain ⟨s1, h1, hn1, hs1, hi1, hl1, hl1v, r1⟩ := key
        obtain ⟨c2, p2, b2, r2, e2, n2, l2, q2, g2⟩ := visit_sim ih hv ws (i + 1) s1 _ s' hd' (by omega) (by rw [hn1]; exact hn) hl1v r1 h1
        refine ⟨1 + c2, p2, ?_, r2, ?_, n2, l2, ⟨by rw [← hs1]; exact q2.pre, fun u hu => by rw [← hi1]; exact q2.idx u (by rw [hs1]; exact hu)⟩, ?_⟩
        · rw [left_num hn1] at b2
          simp only [List.length_cons]
          omega
        · intro u hu hu2
          obtain ⟨y1, y2⟩ := e2 u hu (by rw [hn1]; exact hu2)
          rw [hn1] at y1
          rw [hl1 u hu] at y2
          exact ⟨y1, y2⟩
        · intro k fs
          rw [show 1 + c2 + k = 1 + (c2 + k) by omega, run_succ]
          simp only [step, continueAt, hv, hget, hpw]
          rw [if_neg (by omega)]
          simp only
          rw [g2]

/-- calls are simulated -/
theorem dfs_sim : ∀ (fuel : Nat) (v : Nat) (s : Sccs.St) (p : St) (s' : Sccs.St), s.num v = -1 → Rel s p → Sccs.dfs graph fuel v s = some s' →
    ∃ c p', c + left graph s' ≤ left graph s ∧ Rel s' p' ∧ Ext s s' ∧ s'.num v ≠ -1 ∧ Pre s s' ∧ ∀ k fs, run graph (c + k) (.begin v :: fs) p = run graph k fs p'
  | 0, v, s, p, s', _, _, h => by
    rw [Sccs.dfs] at h
    cases h
  | fuel + 1, v, s, p, s', hn, hr, h => by
    rw [Sccs.dfs] at h
    obtain ⟨succs, hv, h⟩ := Option.bind_eq_some_iff.mp h
    obtain ⟨s2, h2, h⟩ := Option.bind_eq_some_iff.mp h
    simp only [Option.some.injEq] at h
    subst h
    have hcnt := hr.cnt
    have hvs : v ∉ s.stack := fun h => hr.stN v h hn
    have hr1 := rel_enter hr hn
    have e0 : (Sccs.enter v s).num v = (p.current : Int) := by simp [Sccs.enter, Sccs.upd, hcnt]
    rw [hcnt] at h2
    obtain ⟨c, p2, b, r2, e2, n2, l2, q2, g2⟩ := visit_sim (dfs_sim fuel) hv succs 0 (Sccs.enter v s) (enter v p) s2 rfl (by omega) e0 (by simp [Sccs.enter, Sccs.upd, hcnt]) hr1 h2
    have hst : v ∈ s2.stack := q2.pre.subset (by simp [Sccs.enter])
    obtain ⟨p3, h3, r3⟩ := rel_close r2 n2 hst
    obtain ⟨cn, cl, _⟩ := close_num v (p.current : Int) s2
    rw [hcnt]
    have hq0 : Pre s (Sccs.enter v s) := by
      refine ⟨by simp [Sccs.enter], fun u hu => ?_⟩
      have : u ≠ v := fun e => hvs (e ▸ hu)
      simp [Sccs.enter, Sccs.upd, this]
    have hq3 : Pre s s2 := hq0.trans q2
    refine ⟨1 + (c + 1), p3, ?_, r3, ⟨fun u hu => ?_⟩, ?_, ?_, ?_⟩
    · have := left_enter (graph := graph) hv hn (by omega)
      rw [left_num cn]
      omega
    · have huv : u ≠ v := fun e => hu (e ▸ hn)
      have e1 : (Sccs.enter v s).num u = s.num u := by simp [Sccs.enter, Sccs.upd, huv]
      have e3 : (Sccs.enter v s).low u = s.low u := by simp [Sccs.enter, Sccs.upd, huv]
      obtain ⟨x, y⟩ := e2 u huv (by rw [e1]; exact hu)
      rw [cn, cl]
      exact ⟨x.trans e1, y.trans e3⟩
    · rw [cn, n2]
      omega
    · -- the stack
      unfold Sccs.close
      split
      · have hiv : s2.idx v = (s.stack.length : Int) := by
          rw [q2.idx v (by simp [Sccs.enter])]
          simp [Sccs.enter, Sccs.upd]
        have htake : s2.stack.take s.stack.length = s.stack := (List.prefix_iff_eq_take.mp hq3.pre).symm
        refine ⟨?_, fun u hu => ?_⟩
        · simp only [hiv, Int.toNat_natCast, htake]
          exact List.prefix_refl _
        · have hnd : u ∉ s2.stack.drop s.stack.length := by
            intro hd
            have hn := r2.nodup
            rw [← List.take_append_drop s.stack.length s2.stack, List.nodup_append] at hn
            exact hn.2.2 u (by rw [htake]; exact hu) u hd rfl
          simp only [hiv, Int.toNat_natCast, hnd, if_false]
          exact hq3.idx u hu
      · exact hq3
    · intro k fs
      rw [show 1 + (c + 1) + k = 1 + (c + (1 + k)) by omega, run_succ]
      simp only [step]
      rw [g2, run_succ]
      simp only [step, continueAt, hv, if_true, h3, Option.map_some]

theorem run_more {k : Nat} {p p' : St} {fs : List Frame} (h : run graph k fs p = some p') (d : Nat) : run graph (k + d) fs p = some p' := by
  induction k generalizing fs p with
  | zero =>
    cases fs with
    | nil => rw [run] at h ⊢; exact h
    | cons f fs => rw [run] at h; cases h
  | succ k ih =>
    cases fs with
    | nil => rw [run] at h ⊢; exact h
    | cons f fs =>
      rw [show k + 1 + d = (k + d) + 1 by omega, run]
      rw [run] at h
      cases hs : step graph f fs p with
      | none => rw [hs] at h; cases h
      | some x =>
        rw [hs] at h
        exact ih h

theorem outer_sim (fuel : Nat) : ∀ (vs : List Nat) (s : Sccs.St) (p : St) (s' : Sccs.St), Rel s p → Sccs.outer graph fuel vs s = some s' → ∀ B, left graph s ≤ B → ∃ p', outer graph B vs p = some p' ∧ Rel s' p'
  | [], s, p, s', hr, h, _, _ => by
    rw [Sccs.outer] at h
    cases h
    exact ⟨p, rfl, hr⟩
  | v :: vs, s, p, s', hr, h, B, hB => by
    rw [Sccs.outer] at h
    split at h
    · rename_i hn
      obtain ⟨s1, h1, h2⟩ := Option.bind_eq_some_iff.mp h
      obtain ⟨c, p1, b, r1, _, _, _, g⟩ := dfs_sim fuel v s p s1 hn hr h1
      have hind : p.indices v = none := by
        rcases hr.ind v with ⟨_, b⟩ | ⟨k', a, _⟩
        · exact b
        · omega
      have hrun : run graph B [.begin v] p = some p1 := by
        have := g (B - c) []
        rw [show c + (B - c) = B by omega] at this
        rw [this, run]
      obtain ⟨p', h3, r3⟩ := outer_sim fuel vs s1 p1 s' r1 h2 B (by omega)
      refine ⟨p', ?_, r3⟩
      rw [outer, hind]
      simp only [hrun]
      exact h3
    · rename_i hn
      obtain ⟨k, _, hk⟩ : ∃ k : Nat, s.num v = (k : Int) ∧ p.indices v = some (k + 1) := by
        rcases hr.ind v with ⟨a, _⟩ | h
        · exact absurd a hn
        · exact h
      obtain ⟨p', h3, r3⟩ := outer_sim fuel vs s p s' hr h B hB
      refine ⟨p', ?_, r3⟩
      rw [outer, hk]
      exact h3

/-- both algorithms have the same result -/
theorem getSccs_eq {fuel : Nat} {out : List (List Nat)} (h : Sccs.computeMaximalSccs graph fuel = some out) : getSccs graph (bound graph) = some out := by
  unfold Sccs.computeMaximalSccs at h
  obtain ⟨s, h1, h2⟩ := Option.bind_eq_some_iff.mp h
  cases h2
  obtain ⟨p, h3, r⟩ := outer_sim fuel _ _ { indices := fun _ => none, low := fun _ => -1, stackIdx := fun _ => none, current := 0, stack := [], sccs := [] } s
    ⟨fun _ => Or.inl ⟨rfl, rfl⟩, fun _ h => absurd rfl h, fun _ => Or.inl ⟨rfl, rfl⟩, rfl, rfl, rfl, by simp, by simp, by simp⟩ h1 (bound graph) (by
      unfold left bound
      simp only [if_true]
      rw [show graph.zipIdx.map (fun x => 2 * x.1.length + 2) = (graph.zipIdx.map (·.1)).map (fun x => 2 * x.length + 2) by rw [List.map_map]; rfl]
      rw [List.zipIdx_map_fst]
      exact Nat.le_refl _)
  unfold getSccs
  rw [h3]
  simp only [r.sccs]

end Verif.PySccs
