import Verif.Model.MaxCliques
import Mathlib.Data.List.Basic
import Mathlib.Data.List.Sort

namespace Verif.MaxCliques

abbrev Srt (l : List Nat) : Prop := l.Pairwise (· < ·)

theorem setIntersection_eq : ∀ (as bs : List Nat), Srt as → Srt bs → setIntersection as bs = as.filter (· ∈ bs) := by
  intro as bs
  induction as, bs using setIntersection.induct with
  | case1 bs => intros; simp [setIntersection]
  | case2 as h => intros; cases as <;> simp [setIntersection]
  | case3 a as b bs hab ih =>
    intro h1 h2
    have h1' := List.pairwise_cons.mp h1
    have h2' := List.pairwise_cons.mp h2
    rw [setIntersection, if_pos hab, ih h1'.2 h2]
    have : a ∉ b :: bs := by
      rw [List.mem_cons, not_or]
      refine ⟨by omega, fun h => ?_⟩
      have := h2'.1 a h; omega
    rw [List.filter_cons]
    simp [this]
  | case4 a as b bs hab hba ih =>
    intro h1 h2
    have h1' := List.pairwise_cons.mp h1
    have h2' := List.pairwise_cons.mp h2
    rw [setIntersection, if_neg hab, if_pos hba, ih h1 h2'.2]
    apply List.filter_congr
    intro x hx
    have : x ≠ b := by
      rcases List.mem_cons.mp hx with rfl | h
      · omega
      · have := h1'.1 x h; omega
    simp [this]
  | case5 a as b bs hab hba ih =>
    intro h1 h2
    have h1' := List.pairwise_cons.mp h1
    have h2' := List.pairwise_cons.mp h2
    have : a = b := by omega
    subst this
    rw [setIntersection, if_neg hab, if_neg hba, ih h1'.2 h2'.2, List.filter_cons]
    simp only [List.mem_cons, true_or, decide_true, if_true, List.cons.injEq, true_and]
    apply List.filter_congr
    intro x hx
    have := h1'.1 x hx
    have : x ≠ a := by omega
    simp [this]

theorem setDifference_eq : ∀ (as bs : List Nat), Srt as → Srt bs → setDifference as bs = as.filter (· ∉ bs) := by
  intro as bs
  induction as, bs using setDifference.induct with
  | case1 bs => intros; simp [setDifference]
  | case2 a as => intros; simp [setDifference]
  | case3 a as b bs hab ih =>
    intro h1 h2
    have h1' := List.pairwise_cons.mp h1
    have h2' := List.pairwise_cons.mp h2
    rw [setDifference, if_pos hab, ih h1'.2 h2]
    have : a ∉ b :: bs := by
      rw [List.mem_cons, not_or]
      refine ⟨by omega, fun h => ?_⟩
      have := h2'.1 a h; omega
    rw [List.filter_cons]
    simp [this]
  | case4 a as b bs hab hba ih =>
    intro h1 h2
    have h1' := List.pairwise_cons.mp h1
    have h2' := List.pairwise_cons.mp h2
    rw [setDifference, if_neg hab, if_pos hba, ih h1 h2'.2]
    apply List.filter_congr
    intro x hx
    have : x ≠ b := by
      rcases List.mem_cons.mp hx with rfl | h
      · omega
      · have := h1'.1 x h; omega
    simp [this]
  | case5 a as b bs hab hba ih =>
    intro h1 h2
    have h1' := List.pairwise_cons.mp h1
    have h2' := List.pairwise_cons.mp h2
    have : a = b := by omega
    subst this
    rw [setDifference, if_neg hab, if_neg hba, ih h1'.2 h2'.2, List.filter_cons]
    simp only [List.mem_cons, true_or, not_true, decide_false, Bool.false_eq_true, if_false]
    apply List.filter_congr
    intro x hx
    have := h1'.1 x hx
    have : x ≠ a := by omega
    simp [this]

theorem eraseLowerBound_eq (q : Nat) : ∀ (l : List Nat), Srt l → q ∈ l → eraseLowerBound q l = some (l.filter (· ≠ q))
  | [], _, h => by simp at h
  | a :: as, hs, h => by
    have hs' := List.pairwise_cons.mp hs
    unfold eraseLowerBound
    split
    · rename_i haq
      have hne : q ≠ a := by omega
      rw [eraseLowerBound_eq q as hs'.2 (by simpa [hne] using h)]
      simp [List.filter_cons, hne.symm]
    · rename_i haq
      have : a = q := by
        rcases List.mem_cons.mp h with h | h
        · exact h.symm
        · have := hs'.1 q h; omega
      subst this
      rw [List.filter_cons]
      simp only [ne_eq, not_true, decide_false, Bool.false_eq_true, if_false, Option.some.injEq]
      symm
      rw [List.filter_eq_self]
      intro x hx
      have := hs'.1 x hx
      simp; omega

/-- adjacency as stored in the graph -/
def Adj (graph : List (List Nat)) (u v : Nat) : Prop := ∃ nb, graph[u]? = some nb ∧ v ∈ nb

/-- an undirected loop-free graph with sorted adjacency lists -/
structure GraphOK (graph : List (List Nat)) : Prop where
  sorted : ∀ (u : Nat) (nb : List Nat), graph[u]? = some nb → Srt nb
  loopfree : ∀ u, ¬ Adj graph u u
  symm : ∀ u v, Adj graph u v → Adj graph v u

/-- the set of vertices `S` is a maximal clique -/
def MaximalClique (graph : List (List Nat)) (S : Nat → Prop) : Prop :=
  (∀ v, S v → v < graph.length) ∧ (∀ u v, S u → S v → u ≠ v → Adj graph u v) ∧
  ∀ w, w < graph.length → ¬ S w → ∃ v, S v ∧ ¬ Adj graph w v

variable {graph : List (List Nat)}

theorem maximizingLoop_mem (cand : List Nat) : ∀ (vs : List Nat) (max vertex : Nat) (S : List Nat), (∀ v ∈ vs, v ∈ S ∧ v < graph.length) →
    vertex ∈ S → ∃ u, maximizingLoop graph cand vs max vertex = some u ∧ u ∈ S
  | [], _, vertex, S, _, h => ⟨vertex, rfl, h⟩
  | v :: vs, max, vertex, S, hS, h => by
    obtain ⟨h1, h2⟩ := hS v (by simp)
    unfold maximizingLoop
    rw [List.getElem?_eq_getElem h2]
    simp only [Option.bind_eq_bind, Option.bind_some]
    split
    · exact maximizingLoop_mem cand vs _ _ S (fun x hx => hS x (by simp [hx])) h1
    · exact maximizingLoop_mem cand vs _ _ S (fun x hx => hS x (by simp [hx])) h

/-- the arguments of a recursive call -/
structure CallOK (graph : List (List Nat)) (cur subg cand : List Nat) : Prop where
  curN : cur.Nodup
  curLt : ∀ v ∈ cur, v < graph.length
  curC : ∀ u ∈ cur, ∀ v ∈ cur, u ≠ v → Adj graph u v
  subgS : Srt subg
  candS : Srt cand
  subgM : ∀ v, v ∈ subg ↔ v < graph.length ∧ ∀ u ∈ cur, Adj graph u v
  candM : ∀ v ∈ cand, v ∈ subg

/-- the output of a call: each maximal clique satisfying `F`, exactly once -/
def Out (graph : List (List Nat)) (F : (Nat → Prop) → Prop) (out : List (List Nat)) : Prop :=
  (∀ c ∈ out, c.Nodup ∧ MaximalClique graph (· ∈ c) ∧ F (· ∈ c)) ∧
  (∀ S, MaximalClique graph S → F S → ∃ c ∈ out, ∀ v, v ∈ c ↔ S v) ∧
  out.Pairwise (fun c d => ¬ ∀ v, v ∈ c ↔ v ∈ d)

def Between (cur cand : List Nat) (S : Nat → Prop) : Prop := (∀ v ∈ cur, S v) ∧ ∀ v, S v → v ∈ cur ∨ v ∈ cand

/-- one recursive call of the loop -/
theorem CallOK.step {cur subg cand : List Nat} (hg : GraphOK graph) (h : CallOK graph cur subg cand) {q : Nat} (hq : q ∈ cand) {nb : List Nat}
    (hnb : graph[q]? = some nb) : CallOK graph (cur ++ [q]) (subg.filter (· ∈ nb)) (cand.filter (· ∈ nb)) := by
  have hqs := h.candM q hq
  have hqs' := (h.subgM q).1 hqs
  have hadj : ∀ v, v ∈ nb ↔ Adj graph q v := by
    intro v
    constructor
    · intro hv; exact ⟨nb, hnb, hv⟩
    · rintro ⟨nb', h1, h2⟩; rw [hnb] at h1; simp at h1; subst h1; exact h2
  refine ⟨?_, ?_, ?_, h.subgS.filter _, h.candS.filter _, ?_, ?_⟩
  · rw [List.nodup_append]
    refine ⟨h.curN, by simp, ?_⟩
    intro a ha b hb
    simp at hb
    subst hb
    rintro rfl
    exact hg.loopfree a (hqs'.2 a ha)
  · intro v hv
    rcases List.mem_append.mp hv with hv | hv
    · exact h.curLt v hv
    · simp at hv; subst hv; exact hqs'.1
  · intro u hu v hv hne
    rcases List.mem_append.mp hu with hu1 | hu1 <;> rcases List.mem_append.mp hv with hv1 | hv1
    · exact h.curC u hu1 v hv1 hne
    · simp at hv1; subst hv1; exact hqs'.2 u hu1
    · simp at hu1; subst hu1; exact hg.symm _ _ (hqs'.2 v hv1)
    · simp at hu1 hv1; omega
  · intro v
    simp only [List.mem_filter, decide_eq_true_eq, hadj, h.subgM, List.mem_append, List.mem_singleton]
    constructor
    · rintro ⟨⟨a, b⟩, c⟩
      refine ⟨a, ?_⟩
      rintro u (hu | rfl)
      · exact b u hu
      · exact c
    · rintro ⟨a, b⟩
      exact ⟨⟨a, fun u hu => b u (Or.inl hu)⟩, b q (Or.inr rfl)⟩
  · intro v hv
    simp only [List.mem_filter] at hv ⊢
    exact ⟨h.candM v hv.1, hv.2⟩

theorem loop_spec (hg : GraphOK graph) (fuel : Nat)
    (ihe : ∀ (cur subg cand : List Nat), CallOK graph cur subg cand → subg.length < fuel →
      ∃ out, expand graph fuel cur subg cand = some out ∧ Out graph (Between cur cand) out)
    (cur subg : List Nat) : ∀ (ext cand : List Nat), CallOK graph cur subg cand → subg.length ≤ fuel → (∀ q ∈ ext, q ∈ cand) → ext.Nodup →
    ∃ out, expandLoop graph fuel cur subg ext cand = some out ∧
      Out graph (fun S => Between cur cand S ∧ ∃ q ∈ ext, S q) out
  | [], cand, h, _, _, _ => ⟨[], by rw [expandLoop], by simp [Out]⟩
  | q :: ext, cand, h, hf, hext, hnd => by
    have hq := hext q (by simp)
    rw [List.nodup_cons] at hnd
    have hql := ((h.subgM q).1 (h.candM q hq)).1
    obtain ⟨nb, hnb⟩ : ∃ nb, graph[q]? = some nb := ⟨_, List.getElem?_eq_getElem hql⟩
    have hadj : ∀ v, v ∈ nb ↔ Adj graph q v := by
      intro v
      constructor
      · intro hv; exact ⟨nb, hnb, hv⟩
      · rintro ⟨nb', h1, h2⟩; rw [hnb] at h1; simp at h1; subst h1; exact h2
    have hqc : q ∉ cur := fun hc => hg.loopfree q (((h.subgM q).1 (h.candM q hq)).2 q hc)
    obtain ⟨out, e1, a1, a2, a3⟩ := ihe _ _ _ (h.step hg hq hnb) (by
      have : (subg.filter (· ∈ nb)).length < subg.length := by
        rw [List.length_filter_lt_length_iff_exists]
        refine ⟨q, h.candM q hq, ?_⟩
        simp only [decide_eq_true_eq]
        rw [hadj]; exact hg.loopfree q
      omega)
    have h' : CallOK graph cur subg (cand.filter (· ≠ q)) :=
      ⟨h.curN, h.curLt, h.curC, h.subgS, h.candS.filter _, h.subgM, fun v hv => h.candM v (List.mem_of_mem_filter hv)⟩
    obtain ⟨rest, e2, b1, b2, b3⟩ := loop_spec hg fuel ihe cur subg ext _ h' hf (by
      intro x hx
      rw [List.mem_filter]
      refine ⟨hext x (by simp [hx]), ?_⟩
      simp only [ne_eq, decide_eq_true_eq]
      rintro rfl; exact hnd.1 hx) hnd.2
    refine ⟨out ++ rest, ?_, ?_, ?_, ?_⟩
    · rw [expandLoop, hnb]
      simp only [Option.bind_eq_bind, Option.bind_some]
      rw [setIntersection_eq _ _ h.subgS (hg.sorted _ _ hnb), setIntersection_eq _ _ h.candS (hg.sorted _ _ hnb), e1,
        eraseLowerBound_eq q cand h.candS hq]
      simp only [Option.bind_some]
      rw [e2]
      rfl
    · intro c hc
      rcases List.mem_append.mp hc with hc | hc
      · obtain ⟨c1, c2, c3, c4⟩ := a1 c hc
        refine ⟨c1, c2, ⟨fun v hv => c3 v (by simp [hv]), ?_⟩, q, by simp, c3 q (by simp)⟩
        intro v hv
        rcases c4 v hv with h1 | h1
        · rcases List.mem_append.mp h1 with h1 | h1
          · exact Or.inl h1
          · simp at h1; subst h1; exact Or.inr hq
        · exact Or.inr (List.mem_of_mem_filter h1)
      · obtain ⟨c1, c2, ⟨c3, c4⟩, x, hx, hxc⟩ := b1 c hc
        refine ⟨c1, c2, ⟨c3, ?_⟩, x, by simp [hx], hxc⟩
        intro v hv
        rcases c4 v hv with h1 | h1
        · exact Or.inl h1
        · exact Or.inr (List.mem_of_mem_filter h1)
    · intro S hS hF
      obtain ⟨⟨f1, f2⟩, x, hx, hxS⟩ := hF
      by_cases hqS : S q
      · obtain ⟨c, hc, hcS⟩ := a2 S hS (by
          refine ⟨?_, ?_⟩
          · intro v hv
            rcases List.mem_append.mp hv with hv | hv
            · exact f1 v hv
            · simp at hv; subst hv; exact hqS
          · intro v hv
            by_cases hvq : v = q
            · left; simp [hvq]
            · rcases f2 v hv with h1 | h1
              · left; simp [h1]
              · right
                rw [List.mem_filter]
                refine ⟨h1, ?_⟩
                simp only [decide_eq_true_eq]
                rw [hadj]
                exact hS.2.1 q v hqS hv (Ne.symm hvq))
        exact ⟨c, by simp [hc], hcS⟩
      · obtain ⟨c, hc, hcS⟩ := b2 S hS (by
          refine ⟨⟨f1, ?_⟩, x, ?_, hxS⟩
          · intro v hv
            rcases f2 v hv with h1 | h1
            · exact Or.inl h1
            · right
              rw [List.mem_filter]
              refine ⟨h1, ?_⟩
              simp only [ne_eq, decide_eq_true_eq]
              rintro rfl; exact hqS hv
          · rcases List.mem_cons.mp hx with rfl | h1
            · exact absurd hxS hqS
            · exact h1)
        exact ⟨c, by simp [hc], hcS⟩
    · rw [List.pairwise_append]
      refine ⟨a3, b3, ?_⟩
      intro c hc d hd heq
      obtain ⟨_, _, c3, _⟩ := a1 c hc
      obtain ⟨_, _, ⟨_, d4⟩, _⟩ := b1 d hd
      have : q ∈ d := (heq q).1 (c3 q (by simp))
      rcases d4 q this with h1 | h1
      · exact hqc h1
      · simp at h1

theorem expand_spec (hg : GraphOK graph) : ∀ (fuel : Nat) (cur subg cand : List Nat), CallOK graph cur subg cand → subg.length < fuel →
    ∃ out, expand graph fuel cur subg cand = some out ∧ Out graph (Between cur cand) out := by
  intro fuel
  induction fuel with
  | zero => intro _ _ _ _ h; omega
  | succ fuel ih =>
    intro cur subg cand h hf
    rw [expand]
    by_cases hsub : subg = []
    · subst hsub
      simp only [List.isEmpty_nil, if_true]
      have hcand : cand = [] := by
        cases cand with
        | nil => rfl
        | cons a as => have := h.candM a (by simp); simp at this
      subst hcand
      have hmax : MaximalClique graph (· ∈ cur) := by
        refine ⟨h.curLt, fun u v hu hv => h.curC u hu v hv, ?_⟩
        intro w hw hwc
        by_contra hc
        push Not at hc
        have : w ∈ ([] : List Nat) := (h.subgM w).2 ⟨hw, fun u hu => hg.symm _ _ (hc u hu)⟩
        simp at this
      refine ⟨[cur], rfl, ?_, ?_, by simp⟩
      · intro c hc
        simp at hc
        subst hc
        exact ⟨h.curN, hmax, fun v hv => hv, fun v hv => Or.inl hv⟩
      · intro S hS hB
        refine ⟨cur, by simp, fun v => ⟨hB.1 v, fun hv => ?_⟩⟩
        rcases hB.2 v hv with h1 | h1
        · exact h1
        · simp at h1
    · have hne : subg.isEmpty = false := by simpa using hsub
      rw [hne]
      simp only [Bool.false_eq_true, if_false]
      obtain ⟨u, hu, huS⟩ : ∃ u, getMaximizingVertex graph subg cand = some u ∧ u ∈ subg := by
        unfold getMaximizingVertex
        cases subg with
        | nil => simp at hsub
        | cons v vs =>
          simp only [List.getElem?_cons_zero, Option.bind_eq_bind, Option.bind_some]
          exact maximizingLoop_mem cand _ _ _ _ (fun x hx => ⟨hx, ((h.subgM x).1 hx).1⟩) (by simp)
      have hul := ((h.subgM u).1 huS).1
      obtain ⟨nb, hnb⟩ : ∃ nb, graph[u]? = some nb := ⟨_, List.getElem?_eq_getElem hul⟩
      have hadj : ∀ v, v ∈ nb ↔ Adj graph u v := by
        intro v
        constructor
        · intro hv; exact ⟨nb, hnb, hv⟩
        · rintro ⟨nb', h1, h2⟩; rw [hnb] at h1; simp at h1; subst h1; exact h2
      rw [hu]
      simp only [Option.bind_eq_bind, Option.bind_some, hnb]
      rw [setDifference_eq _ _ h.candS (hg.sorted _ _ hnb)]
      obtain ⟨out, e, a1, a2, a3⟩ := loop_spec hg fuel ih cur subg (cand.filter (· ∉ nb)).reverse cand h (by omega)
        (by intro q hq; exact List.mem_of_mem_filter (List.mem_reverse.mp hq))
        (by
          rw [List.nodup_reverse]
          exact List.Nodup.filter _ (h.candS.imp (fun hab => Nat.ne_of_lt hab)))
      refine ⟨out, e, ?_, ?_, a3⟩
      · intro c hc
        obtain ⟨c1, c2, c3, _⟩ := a1 c hc
        exact ⟨c1, c2, c3⟩
      · intro S hS hB
        apply a2 S hS
        refine ⟨hB, ?_⟩
        by_contra hno
        push Not at hno
        have hno' : ∀ v, S v → v ∈ cand → Adj graph u v := by
          intro v hv hvc
          by_contra hna
          exact hno v (by rw [List.mem_reverse, List.mem_filter]; simpa [hadj] using ⟨hvc, hna⟩) hv
        have hucur : u ∉ cur := fun hc => hg.loopfree u (((h.subgM u).1 huS).2 u hc)
        have huS' : ¬ S u := by
          intro hSu
          rcases hB.2 u hSu with h1 | h1
          · exact hucur h1
          · exact hg.loopfree u (hno' u hSu h1)
        obtain ⟨v, hv, hvn⟩ := hS.2.2 u hul huS'
        rcases hB.2 v hv with h1 | h1
        · exact hvn (hg.symm _ _ (((h.subgM u).1 huS).2 v h1))
        · exact hvn (hno' v hv h1)

end Verif.MaxCliques
