import Verif.Model.Sccs
import Mathlib.Logic.Relation
import Mathlib.Data.List.Basic
import Mathlib.Data.List.Nodup

namespace Verif.Sccs

/-- there is an edge from `u` to `v` -/
def Edge (graph : List (List Nat)) (u v : Nat) : Prop := ∃ succs, graph[u]? = some succs ∧ v ∈ succs

/-- `v` is reachable from `u` -/
abbrev Reach (graph : List (List Nat)) : Nat → Nat → Prop := Relation.ReflTransGen (Edge graph)

variable {graph : List (List Nat)}

/-- state invariant, with `G` the vertices whose call is active -/
structure Inv (graph : List (List Nat)) (G : List Nat) (s : St) : Prop where
  cnt : 0 ≤ s.counter
  numR : ∀ v, s.num v ≠ -1 → 0 ≤ s.num v ∧ s.num v < s.counter ∧ v < graph.length
  stN : ∀ v ∈ s.stack, s.num v ≠ -1
  inc : s.stack.Pairwise (fun a b => s.num a < s.num b)
  idx : ∀ v, (s.idx v = -1 ∧ v ∉ s.stack) ∨ (0 ≤ s.idx v ∧ s.stack[(s.idx v).toNat]? = some v)
  done : ∀ v, v ∈ s.sccs.flatten ↔ s.num v ≠ -1 ∧ v ∉ s.stack
  grayS : ∀ g ∈ G, g ∈ s.stack
  black : ∀ v w, s.num v ≠ -1 → v ∉ G → Edge graph v w → s.num w ≠ -1
  doneE : ∀ v w, v ∈ s.sccs.flatten → Edge graph v w → w ∈ s.sccs.flatten
  toG : ∀ v ∈ s.stack, ∃ g ∈ G, s.num g ≤ s.num v ∧ Reach graph v g
  fromG : ∀ g ∈ G, ∀ v ∈ s.stack, s.num g ≤ s.num v → Reach graph g v
  ok : ∀ c ∈ s.sccs, c ≠ [] ∧ ∀ v ∈ c, ∀ w, w ∈ c ↔ Reach graph v w ∧ Reach graph w v
  nodup : s.sccs.flatten.Nodup
  topo : s.sccs.Pairwise (fun c d => ∀ v ∈ c, ∀ w ∈ d, ¬ Edge graph v w)

/-- what `dfs` guarantees -/
structure Post (graph : List (List Nat)) (G : List Nat) (v : Nat) (s s' : St) : Prop where
  inv : Inv graph G s'
  ext : ∀ u, s.num u ≠ -1 → s'.num u = s.num u ∧ s'.low u = s.low u
  vis : s'.num v ≠ -1
  res : (s'.stack = s.stack ∧ s.counter ≤ s'.low v) ∨
    ∃ l, s'.stack = s.stack ++ v :: l ∧ (∃ w ∈ s.stack, s'.low v = s.num w ∧ Reach graph v w) ∧
      ∀ y ∈ v :: l, ∀ x ∈ s.stack, Edge graph y x → s'.low v ≤ s.num x

def unvisited (graph : List (List Nat)) (s : St) : Nat := ((List.range graph.length).filter (fun v => s.num v = -1)).length

theorem unvisited_mono {s s' : St} (h : ∀ u, s.num u ≠ -1 → s'.num u = s.num u) : unvisited graph s' ≤ unvisited graph s := by
  unfold unvisited
  apply List.Sublist.length_le
  apply List.monotone_filter_right
  intro v hv
  simp only [decide_eq_true_eq] at hv ⊢
  by_contra hc
  rw [h v hc] at hv
  exact hc hv

theorem unvisited_enter {s : St} {v : Nat} (hv : v < graph.length) (hn : s.num v = -1) (hc : 0 ≤ s.counter) :
    unvisited graph (enter v s) < unvisited graph s := by
  unfold unvisited
  have : (List.range graph.length).filter (fun u => (enter v s).num u = -1) =
      ((List.range graph.length).filter (fun u => s.num u = -1)).filter (fun u => u ≠ v) := by
    rw [List.filter_filter]
    apply List.filter_congr
    intro u _
    simp only [enter, upd]
    by_cases huv : u = v
    · subst huv
      simp
      omega
    · simp [huv]
  rw [this, List.length_filter_lt_length_iff_exists]
  refine ⟨v, ?_, by simp⟩
  simp [hv, hn]

/-- the invariant of the loop over the successors -/
structure LoopInv (graph : List (List Nat)) (G : List Nat) (v : Nat) (s0 : St) (ws : List Nat) (s : St) : Prop where
  inv : Inv graph (G ++ [v]) s
  ext : ∀ u, s0.num u ≠ -1 → s.num u = s0.num u ∧ s.low u = s0.low u
  numv : s.num v = s0.counter
  stk : ∃ l, s.stack = s0.stack ++ v :: l ∧
    ∀ y ∈ v :: l, ∀ x ∈ s0.stack, Edge graph y x → (y = v ∧ x ∈ ws) ∨ s.low v ≤ s0.num x
  low : ∃ w ∈ s.stack, s.low v = s.num w ∧ s.num w ≤ s.num v ∧ Reach graph v w
  proc : ∀ w, Edge graph v w → w ∈ ws ∨ s.num w ≠ -1

theorem enter_inv {G : List Nat} {v : Nat} {s0 : St} (hi : Inv graph G s0) (hv : v < graph.length) (hn : s0.num v = -1)
    (hG : ∀ g ∈ G, Reach graph g v) {succs : List Nat} (hs : graph[v]? = some succs) :
    LoopInv graph G v s0 succs (enter v s0) := by
  have hvs : v ∉ s0.stack := fun h => hi.stN v h hn
  have hcnt := hi.cnt
  have hnum : ∀ u, s0.num u ≠ -1 → (enter v s0).num u = s0.num u := by
    intro u hu
    have : u ≠ v := by rintro rfl; exact hu hn
    simp [enter, upd, this]
  have hnumv : (enter v s0).num v = s0.counter := by simp [enter, upd]
  have hnumne : ∀ u, (enter v s0).num u ≠ -1 ↔ s0.num u ≠ -1 ∨ u = v := by
    intro u
    by_cases huv : u = v
    · subst huv; rw [hnumv]; simp; omega
    · simp [enter, upd, huv]
  have hvd : v ∉ s0.sccs.flatten := fun h => ((hi.done v).1 h).1 hn
  refine ⟨⟨?_, ?_, ?_, ?_, ?_, ?_, ?_, ?_, ?_, ?_, ?_, hi.ok, hi.nodup, hi.topo⟩, ?_, hnumv, ?_, ?_, ?_⟩
  · simp only [enter]; omega
  · intro u hu
    rcases (hnumne u).1 hu with h | rfl
    · rw [hnum u h]
      have := hi.numR u h
      simp only [enter]; omega
    · rw [hnumv]; simp only [enter]; omega
  · intro u hu
    rw [hnumne]
    simp only [enter, List.mem_append, List.mem_singleton] at hu
    rcases hu with hu | rfl
    · exact Or.inl (hi.stN u hu)
    · exact Or.inr rfl
  · simp only [enter]
    rw [List.pairwise_append]
    refine ⟨?_, by simp, ?_⟩
    · refine hi.inc.imp_of_mem ?_
      intro a b ha hb hab
      have h1 := hnum a (hi.stN a ha)
      have h2 := hnum b (hi.stN b hb)
      simp only [enter] at h1 h2
      rw [h1, h2]; exact hab
    · intro a ha b hb
      simp at hb
      subst hb
      have h1 := hnum a (hi.stN a ha)
      simp only [enter] at h1 hnumv
      rw [h1, hnumv]
      exact (hi.numR a (hi.stN a ha)).2.1
  · intro u
    by_cases huv : u = v
    · subst huv
      right
      simp [enter, upd]
    · simp only [enter, upd, huv, if_false, List.mem_append, List.mem_singleton, or_false]
      rcases hi.idx u with h | ⟨h1, h2⟩
      · exact Or.inl h
      · right
        refine ⟨h1, ?_⟩
        rw [List.getElem?_append_left (List.getElem?_eq_some_iff.mp h2).1]
        exact h2
  · intro u
    show u ∈ s0.sccs.flatten ↔ _
    rw [hi.done, hnumne]
    simp only [enter, List.mem_append, List.mem_singleton]
    by_cases huv : u = v
    · subst huv; simp [hn]
    · simp [huv]
  · intro g hg
    simp only [enter, List.mem_append, List.mem_singleton] at hg ⊢
    rcases hg with hg | rfl
    · exact Or.inl (hi.grayS g hg)
    · exact Or.inr rfl
  · intro u w hu huG he
    rw [hnumne]
    left
    simp only [List.mem_append, List.mem_singleton, not_or] at huG
    rcases (hnumne u).1 hu with h | h
    · exact hi.black u w h huG.1 he
    · exact absurd h huG.2
  · exact hi.doneE
  · intro u hu
    simp only [enter, List.mem_append, List.mem_singleton] at hu
    rcases hu with hu | rfl
    · obtain ⟨g, hg, h1, h2⟩ := hi.toG u hu
      refine ⟨g, by simp [hg], ?_, h2⟩
      rw [hnum g (hi.stN g (hi.grayS g hg)), hnum u (hi.stN u hu)]
      exact h1
    · exact ⟨u, by simp, Int.le_refl _, Relation.ReflTransGen.refl⟩
  · intro g hg u hu hle
    simp only [List.mem_append, List.mem_singleton] at hg
    simp only [enter, List.mem_append, List.mem_singleton] at hu
    rcases hg with hg | rfl <;> rcases hu with hu | rfl
    · rw [hnum g (hi.stN g (hi.grayS g hg)), hnum u (hi.stN u hu)] at hle
      exact hi.fromG g hg u hu hle
    · exact hG g hg
    · rw [hnumv, hnum u (hi.stN u hu)] at hle
      have := (hi.numR u (hi.stN u hu)).2.1
      omega
    · exact Relation.ReflTransGen.refl
  · intro u hu
    refine ⟨hnum u hu, ?_⟩
    have : u ≠ v := by rintro rfl; exact hu hn
    simp [enter, upd, this]
  · refine ⟨[], by simp [enter], ?_⟩
    intro y hy x hx he
    simp at hy
    subst hy
    left
    obtain ⟨ss, h1, h2⟩ := he
    rw [hs] at h1
    simp at h1
    subst h1
    exact ⟨rfl, h2⟩
  · refine ⟨v, by simp [enter], ?_, Int.le_refl _, Relation.ReflTransGen.refl⟩
    simp [enter, upd]
  · intro w ⟨ss, h1, h2⟩
    rw [hs] at h1
    simp at h1
    subst h1
    exact Or.inl h2

/-- the effect of `close` once all successors are processed -/
theorem close_post {G : List Nat} {v : Nat} {s0 s : St} (hi0 : Inv graph G s0) (hn : s0.num v = -1) (h : LoopInv graph G v s0 [] s) :
    Post graph G v s0 (close v s0.counter s) := by
  obtain ⟨l, hstk, hlow⟩ := h.stk
  have hi := h.inv
  have hvG : v ∉ G := fun hg => hi0.stN v (hi0.grayS v hg) hn
  have hnd : s.stack.Nodup := hi.inc.imp (fun {a b} (hab : s.num a < s.num b) => by rintro rfl; omega)
  have hst0 : ∀ u ∈ s0.stack, s.num u < s.num v := by
    intro u hu
    have := hi.inc
    rw [hstk, List.pairwise_append] at this
    exact this.2.2 u hu v (by simp)
  have hvl : ∀ u ∈ v :: l, s.num v ≤ s.num u := by
    intro u hu
    rcases List.mem_cons.mp hu with rfl | hu
    · exact Int.le_refl _
    · have := hi.inc
      rw [hstk, List.pairwise_append] at this
      have := (List.pairwise_cons.mp this.2.1).1 u hu
      omega
  -- edges out of the new part of the stack
  have hout : ∀ y ∈ v :: l, ∀ x, Edge graph y x → x ∈ v :: l ∨ x ∈ s.sccs.flatten ∨ (x ∈ s0.stack ∧ s.low v ≤ s0.num x) := by
    intro y hy x he
    have hxn : s.num x ≠ -1 := by
      rcases List.mem_cons.mp hy with rfl | hy'
      · rcases h.proc x he with h1 | h1
        · simp at h1
        · exact h1
      · have hyS : y ∈ s.stack := by rw [hstk]; simp [hy']
        by_cases hyG : y ∈ G ++ [v]
        · rcases List.mem_append.mp hyG with h1 | h1
          · exfalso
            rw [hstk, List.nodup_append] at hnd
            exact hnd.2.2 y (hi0.grayS y h1) y hy rfl
          · simp at h1
            subst h1
            rcases h.proc x he with h1 | h1
            · simp at h1
            · exact h1
        · exact hi.black y x (hi.stN y hyS) hyG he
    by_cases hxS : x ∈ s.stack
    · rw [hstk] at hxS
      rcases List.mem_append.mp hxS with h1 | h1
      · right; right
        refine ⟨h1, ?_⟩
        rcases hlow y hy x h1 he with ⟨_, h2⟩ | h2
        · simp at h2
        · exact h2
      · exact Or.inl h1
    · exact Or.inr (Or.inl ((hi.done x).2 ⟨hxn, hxS⟩))
  obtain ⟨w, hw, hw1, hw2, hw3⟩ := h.low
  unfold close
  by_cases hc : s.low v = s0.counter
  · -- the component is complete
    have hidx : (s.idx v).toNat = s0.stack.length := by
      have hpos : s.stack[s0.stack.length]? = some v := by rw [hstk]; simp
      rcases hi.idx v with ⟨_, h1⟩ | ⟨h1, h2⟩
      · exact absurd (List.mem_of_getElem? hpos) h1
      · obtain ⟨a1, a2⟩ := List.getElem?_eq_some_iff.mp h2
        obtain ⟨b1, b2⟩ := List.getElem?_eq_some_iff.mp hpos
        exact (List.Nodup.getElem_inj_iff hnd).mp (by rw [a2, b2])
    have hdrop : s.stack.drop (s.idx v).toNat = v :: l := by rw [hidx, hstk]; simp
    have htake : s.stack.take (s.idx v).toNat = s0.stack := by rw [hidx, hstk]; simp
    rw [if_pos hc]
    simp only [hdrop, htake]
    -- the component is closed under edges, up to completed components
    have hcl : ∀ y, (y ∈ v :: l ∨ y ∈ s.sccs.flatten) → ∀ x, Edge graph y x → (x ∈ v :: l ∨ x ∈ s.sccs.flatten) := by
      rintro y (hy | hy) x he
      · rcases hout y hy x he with h1 | h1 | ⟨h1, h2⟩
        · exact Or.inl h1
        · exact Or.inr h1
        · exfalso
          have := (hi0.numR x (hi0.stN x h1)).2.1
          omega
      · exact Or.inr (hi.doneE y x hy he)
    have hclR : ∀ y x, Reach graph y x → (y ∈ v :: l ∨ y ∈ s.sccs.flatten) → (x ∈ v :: l ∨ x ∈ s.sccs.flatten) := by
      intro y x hr
      induction hr with
      | refl => exact id
      | tail _ he ih => exact fun hy => hcl _ (ih hy) _ he
    have hdoneR : ∀ y x, Reach graph y x → y ∈ s.sccs.flatten → x ∈ s.sccs.flatten := by
      intro y x hr
      induction hr with
      | refl => exact id
      | tail _ he ih => exact fun hy => hi.doneE _ _ (ih hy) he
    have hlnd : ∀ y ∈ v :: l, y ∉ s.sccs.flatten := by
      intro y hy hd
      exact ((hi.done y).1 hd).2 (by rw [hstk]; simp only [List.mem_append]; exact Or.inr hy)
    have hmemS : ∀ y ∈ v :: l, y ∈ s.stack := by
      intro y hy; rw [hstk, List.mem_append]; exact Or.inr hy
    have hfromv : ∀ y ∈ v :: l, Reach graph v y := by
      intro y hy
      exact hi.fromG v (by simp) y (hmemS y hy) (hvl y hy)
    have htov : ∀ y ∈ v :: l, Reach graph y v := by
      intro y hy
      obtain ⟨g, hg, h1, h2⟩ := hi.toG y (hmemS y hy)
      have hgS := hi.grayS g hg
      rcases hclR y g h2 (Or.inl hy) with h3 | h3
      · rcases List.mem_append.mp hg with hg | hg
        · exfalso
          rw [hstk, List.nodup_append] at hnd
          exact hnd.2.2 g (hi0.grayS g hg) g h3 rfl
        · simp at hg; subst hg; exact h2
      · exact absurd hgS ((hi.done g).1 h3).2
    have hnotin0 : ∀ y ∈ v :: l, y ∉ s0.stack := by
      intro y hy hy0
      rw [hstk, List.nodup_append] at hnd
      exact hnd.2.2 y hy0 y hy rfl
    refine ⟨⟨hi.cnt, hi.numR, ?_, ?_, ?_, ?_, hi0.grayS, ?_, ?_, ?_, ?_, ?_, ?_, ?_⟩, h.ext, ?_, ?_⟩
    · intro u hu
      exact hi.stN u (by rw [hstk, List.mem_append]; exact Or.inl hu)
    · have := hi.inc
      rw [hstk, List.pairwise_append] at this
      exact this.1
    · intro u
      show ((if u ∈ v :: l then (-1 : Int) else s.idx u) = -1 ∧ u ∉ s0.stack) ∨
        (0 ≤ (if u ∈ v :: l then (-1 : Int) else s.idx u) ∧ s0.stack[((if u ∈ v :: l then (-1 : Int) else s.idx u)).toNat]? = some u)
      by_cases hu : u ∈ v :: l
      · left; rw [if_pos hu]; exact ⟨rfl, hnotin0 u hu⟩
      · rw [if_neg hu]
        rcases hi.idx u with ⟨h1, h2⟩ | ⟨h1, h2⟩
        · left
          exact ⟨h1, fun hu0 => h2 (by rw [hstk, List.mem_append]; exact Or.inl hu0)⟩
        · right
          refine ⟨h1, ?_⟩
          have hlt : (s.idx u).toNat < s0.stack.length := by
            by_contra hge
            rw [hstk, List.getElem?_append_right (by omega)] at h2
            exact hu (List.mem_of_getElem? h2)
          rw [hstk, List.getElem?_append_left hlt] at h2
          exact h2
    · intro u
      simp only [List.flatten_append, List.flatten_singleton, List.mem_append]
      rw [hi.done, hstk, List.mem_append]
      constructor
      · rintro (⟨h1, h2⟩ | h1)
        · exact ⟨h1, fun hc => h2 (Or.inl hc)⟩
        · exact ⟨hi.stN u (hmemS u h1), hnotin0 u h1⟩
      · rintro ⟨h1, h2⟩
        by_cases hu : u ∈ v :: l
        · exact Or.inr hu
        · left; exact ⟨h1, by rintro (h3 | h3); exacts [h2 h3, hu h3]⟩
    · intro u x hu huG he
      by_cases huv : u = v
      · subst huv
        rcases h.proc x he with h1 | h1
        · simp at h1
        · exact h1
      · exact hi.black u x hu (by simp [huG, huv]) he
    · intro u x hu he
      simp only [List.flatten_append, List.flatten_singleton, List.mem_append] at hu ⊢
      rcases hcl u hu.symm x he with h1 | h1
      · exact Or.inr h1
      · exact Or.inl h1
    · intro u hu
      obtain ⟨g, hg, h1, h2⟩ := hi0.toG u hu
      refine ⟨g, hg, ?_, h2⟩
      rw [(h.ext g (hi0.stN g (hi0.grayS g hg))).1, (h.ext u (hi0.stN u hu)).1]
      exact h1
    · intro g hg u hu hle
      simp only at hle
      rw [(h.ext g (hi0.stN g (hi0.grayS g hg))).1, (h.ext u (hi0.stN u hu)).1] at hle
      exact hi0.fromG g hg u hu hle
    · intro c hc'
      rcases List.mem_append.mp hc' with h1 | h1
      · exact hi.ok c h1
      · rw [List.mem_singleton] at h1
        subst h1
        refine ⟨by simp, ?_⟩
        intro a ha b
        constructor
        · intro hb
          exact ⟨(htov a ha).trans (hfromv b hb), (htov b hb).trans (hfromv a ha)⟩
        · rintro ⟨h1, h2⟩
          rcases hclR a b h1 (Or.inl ha) with h3 | h3
          · exact h3
          · exact absurd (hdoneR b a h2 h3) (hlnd a ha)
    · simp only [List.flatten_append, List.flatten_singleton]
      rw [List.nodup_append]
      refine ⟨hi.nodup, ?_, ?_⟩
      · rw [hstk, List.nodup_append] at hnd; exact hnd.2.1
      · intro a ha b hb
        rintro rfl
        exact hlnd a hb ha
    · simp only
      rw [List.pairwise_append]
      refine ⟨hi.topo, by simp, ?_⟩
      intro c hc' d hd a ha b hb he
      simp at hd
      subst hd
      exact hlnd b (by simpa using hb) (hi.doneE a b (List.mem_flatten.mpr ⟨c, hc', ha⟩) he)
    · show s.num v ≠ -1
      rw [h.numv]; have := hi0.cnt; omega
    · left
      exact ⟨rfl, by show s0.counter ≤ s.low v; omega⟩
  · -- the vertex stays on the stack
    rw [if_neg hc]
    have hlt : s.low v < s0.counter := by rw [hw1]; rw [hw1] at hc; rw [h.numv] at hw2; omega
    have hw0 : w ∈ s0.stack := by
      rw [hstk] at hw
      rcases List.mem_append.mp hw with h1 | h1
      · exact h1
      · exfalso
        have := hvl w h1
        rw [h.numv] at this
        omega
    refine ⟨⟨hi.cnt, hi.numR, hi.stN, hi.inc, hi.idx, hi.done, ?_, ?_, hi.doneE, ?_, ?_, hi.ok, hi.nodup, hi.topo⟩, h.ext, ?_, ?_⟩
    · intro g hg; exact hi.grayS g (by simp [hg])
    · intro u x hu huG he
      by_cases huv : u = v
      · subst huv
        rcases h.proc x he with h1 | h1
        · simp at h1
        · exact h1
      · exact hi.black u x hu (by simp [huG, huv]) he
    · intro u hu
      obtain ⟨g, hg, h1, h2⟩ := hi.toG u hu
      rcases List.mem_append.mp hg with hg | hg
      · exact ⟨g, hg, h1, h2⟩
      · simp at hg
        subst hg
        obtain ⟨g', hg', h3, h4⟩ := hi0.toG w hw0
        refine ⟨g', hg', ?_, h2.trans (hw3.trans h4)⟩
        rw [(h.ext g' (hi0.stN g' (hi0.grayS g' hg'))).1]
        have := (h.ext w (hi0.stN w hw0)).1
        rw [h.numv] at h1
        omega
    · intro g hg u hu hle
      exact hi.fromG g (by simp [hg]) u hu hle
    · rw [h.numv]; have := hi0.cnt; omega
    · right
      refine ⟨l, hstk, ⟨w, hw0, ?_, hw3⟩, ?_⟩
      · rw [hw1]; exact (h.ext w (hi0.stN w hw0)).1
      · intro y hy x hx he
        rcases hlow y hy x hx he with ⟨_, h1⟩ | h1
        · simp at h1
        · exact h1

/-- changing the low value of an active vertex does not affect the invariant -/
theorem Inv.setLow {G : List Nat} {s : St} (h : Inv graph G s) (f : Nat → Int) : Inv graph G { s with low := f } :=
  ⟨h.cnt, h.numR, h.stN, h.inc, h.idx, h.done, h.grayS, h.black, h.doneE, h.toG, h.fromG, h.ok, h.nodup, h.topo⟩

theorem visit_spec (hg : ∀ succs ∈ graph, ∀ w ∈ succs, w < graph.length) (fuel : Nat)
    (ihd : ∀ (G : List Nat) (v : Nat) (s : St), Inv graph G s → v < graph.length → s.num v = -1 → (∀ g ∈ G, Reach graph g v) →
      unvisited graph s ≤ fuel → ∃ s', dfs graph fuel v s = some s' ∧ Post graph G v s s')
    {G : List Nat} {v : Nat} {s0 : St} (hi0 : Inv graph G s0) (hn0 : s0.num v = -1) (hG : ∀ g ∈ G, Reach graph g v) :
    ∀ (ws : List Nat) (s : St), (∀ w ∈ ws, Edge graph v w) → LoopInv graph G v s0 ws s → unvisited graph s ≤ fuel →
      ∃ s', visit graph fuel v s0.counter ws s = some s' ∧ LoopInv graph G v s0 [] s'
  | [], s, _, h, _ => ⟨s, by rw [visit], h⟩
  | w :: ws, s, hws, h, hf => by
    have hvw := hws w (by simp)
    have hwl : w < graph.length := by
      obtain ⟨succs, h1, h2⟩ := hvw
      exact hg succs (List.mem_of_getElem? h1) w h2
    have hi := h.inv
    obtain ⟨l, hstk, hlow⟩ := h.stk
    obtain ⟨z, hz, hz1, hz2, hz3⟩ := h.low
    have hvS : v ∈ s.stack := by rw [hstk]; simp
    have hnv0 : s.num v ≠ -1 := by rw [h.numv]; have := hi0.cnt; omega
    have hv0 : ∀ u, s0.num u ≠ -1 → u ≠ v := by rintro u hu rfl; exact hu hn0
    rw [visit, if_neg (by omega)]
    by_cases hwn : s.num w = -1
    · rw [if_pos hwn]
      obtain ⟨s1, e1, p⟩ := ihd (G ++ [v]) w s hi hwl hwn (by
        intro g hg'
        rcases List.mem_append.mp hg' with h1 | h1
        · exact (hG g h1).tail hvw
        · simp at h1; subst h1; exact Relation.ReflTransGen.single hvw) hf
      rw [e1]
      simp only [Option.bind_eq_bind, Option.bind_some]
      have hlv : s1.low v = s.low v := (p.ext v hnv0).2
      have hwS : w ∉ s.stack := fun hc => hi.stN w hc hwn
      have hw0 : w ∉ s0.stack := fun hc => hwS (by rw [hstk]; simp [hc])
      have hlz : s.low v ≤ s.num v := by omega
      have hcv : s.num v < s.counter := (hi.numR v hnv0).2.1
      apply visit_spec hg fuel ihd hi0 hn0 hG ws _ (fun x hx => hws x (by simp [hx]))
      swap
      · exact Nat.le_trans (unvisited_mono (fun u hu => (p.ext u hu).1)) hf
      refine ⟨p.inv.setLow _, ?_, ?_, ?_, ?_, ?_⟩
      · intro u hu
        have h1 := h.ext u hu
        have h2 := p.ext u (by rw [h1.1]; exact hu)
        refine ⟨h2.1.trans h1.1, ?_⟩
        simp only [upd, hv0 u hu, if_false]
        exact h2.2.trans h1.2
      · show s1.num v = _
        rw [(p.ext v hnv0).1, h.numv]
      · show ∃ l, s1.stack = _ ∧ ∀ y ∈ v :: l, ∀ x ∈ s0.stack, Edge graph y x → (y = v ∧ x ∈ ws) ∨ upd s1.low v (min (s1.low v) (s1.low w)) v ≤ s0.num x
        rcases p.res with ⟨r1, r2⟩ | ⟨l', r1, r2, r3⟩
        · refine ⟨l, by rw [r1, hstk], ?_⟩
          intro y hy x hx he
          simp only [upd, if_true]
          rcases hlow y hy x hx he with ⟨h1, h2⟩ | h1
          · rcases List.mem_cons.mp h2 with rfl | h2
            · exact absurd hx hw0
            · exact Or.inl ⟨h1, h2⟩
          · right; rw [hlv]; omega
        · refine ⟨l ++ w :: l', by rw [r1, hstk]; simp, ?_⟩
          intro y hy x hx he
          simp only [upd, if_true]
          rw [← List.cons_append] at hy
          rcases List.mem_append.mp hy with hy | hy
          · rcases hlow y hy x hx he with ⟨h1, h2⟩ | h1
            · rcases List.mem_cons.mp h2 with rfl | h2
              · exact absurd hx hw0
              · exact Or.inl ⟨h1, h2⟩
            · right; rw [hlv]; omega
          · right
            have := r3 y hy x (by rw [hstk]; simp [hx]) he
            rw [(h.ext x (hi0.stN x hx)).1] at this
            omega
      · show ∃ w' ∈ s1.stack, upd s1.low v (min (s1.low v) (s1.low w)) v = s1.num w' ∧ s1.num w' ≤ s1.num v ∧ Reach graph v w'
        simp only [upd, if_true]
        rw [hlv, (p.ext v hnv0).1]
        have hzn := hi.stN z hz
        rcases p.res with ⟨r1, r2⟩ | ⟨l', r1, ⟨x, hx, hx1, hx2⟩, r3⟩
        · refine ⟨z, by rw [r1]; exact hz, ?_, ?_, hz3⟩
          · rw [(p.ext z hzn).1]; omega
          · rw [(p.ext z hzn).1]; omega
        · by_cases hle : s.low v ≤ s1.low w
          · refine ⟨z, by rw [r1]; simp [hz], ?_, ?_, hz3⟩
            · rw [(p.ext z hzn).1]; omega
            · rw [(p.ext z hzn).1]; omega
          · refine ⟨x, by rw [r1]; simp [hx], ?_, ?_, Relation.ReflTransGen.head hvw hx2⟩
            · rw [(p.ext x (hi.stN x hx)).1]; omega
            · rw [(p.ext x (hi.stN x hx)).1]; omega
      · intro x hx
        show _ ∨ s1.num x ≠ -1
        rcases h.proc x hx with h1 | h1
        · rcases List.mem_cons.mp h1 with rfl | h1
          · exact Or.inr p.vis
          · exact Or.inl h1
        · right; rw [(p.ext x h1).1]; exact h1
    · rw [if_neg hwn]
      have hproc : ∀ x, Edge graph v x → x ∈ ws ∨ s.num x ≠ -1 := by
        intro x hx
        rcases h.proc x hx with h1 | h1
        · rcases List.mem_cons.mp h1 with rfl | h1
          · exact Or.inr hwn
          · exact Or.inl h1
        · exact Or.inr h1
      have hon : s.idx w ≠ -1 ↔ w ∈ s.stack := by
        rcases hi.idx w with ⟨h1, h2⟩ | ⟨h1, h2⟩
        · simp [h1, h2]
        · have := List.mem_of_getElem? h2
          simp only [this, iff_true]
          omega
      by_cases hcond : s.num w < s0.counter ∧ s.idx w ≠ -1
      · rw [if_pos hcond]
        apply visit_spec hg fuel ihd hi0 hn0 hG ws _ (fun x hx => hws x (by simp [hx]))
        swap
        · exact hf
        refine ⟨hi.setLow _, ?_, h.numv, ?_, ?_, hproc⟩
        · intro u hu
          have h1 := h.ext u hu
          refine ⟨h1.1, ?_⟩
          simp only [upd, hv0 u hu, if_false]
          exact h1.2
        · refine ⟨l, hstk, ?_⟩
          intro y hy x hx he
          simp only [upd, if_true]
          rcases hlow y hy x hx he with ⟨h1, h2⟩ | h1
          · rcases List.mem_cons.mp h2 with rfl | h2
            · right
              rw [(h.ext x (hi0.stN x hx)).1]
              omega
            · exact Or.inl ⟨h1, h2⟩
          · right; omega
        · simp only [upd, if_true]
          by_cases hle : s.low v ≤ s.num w
          · exact ⟨z, hz, by omega, hz2, hz3⟩
          · exact ⟨w, hon.1 hcond.2, by omega, by rw [h.numv]; omega, Relation.ReflTransGen.single hvw⟩
      · rw [if_neg hcond]
        apply visit_spec hg fuel ihd hi0 hn0 hG ws _ (fun x hx => hws x (by simp [hx]))
        swap
        · exact hf
        refine ⟨hi, h.ext, h.numv, ⟨l, hstk, ?_⟩, h.low, hproc⟩
        intro y hy x hx he
        rcases hlow y hy x hx he with ⟨h1, h2⟩ | h1
        · rcases List.mem_cons.mp h2 with rfl | h2
          · exfalso
            apply hcond
            refine ⟨?_, hon.2 (by rw [hstk]; simp [hx])⟩
            rw [(h.ext x (hi0.stN x hx)).1]
            exact (hi0.numR x (hi0.stN x hx)).2.1
          · exact Or.inl ⟨h1, h2⟩
        · exact Or.inr h1

theorem dfs_spec (hg : ∀ succs ∈ graph, ∀ w ∈ succs, w < graph.length) : ∀ (fuel : Nat) (G : List Nat) (v : Nat) (s : St),
    Inv graph G s → v < graph.length → s.num v = -1 → (∀ g ∈ G, Reach graph g v) →
      unvisited graph s ≤ fuel → ∃ s', dfs graph fuel v s = some s' ∧ Post graph G v s s' := by
  intro fuel
  induction fuel with
  | zero =>
    intro G v s hi hv hn _ hf
    have := unvisited_enter hv hn hi.cnt
    omega
  | succ fuel ih =>
    intro G v s hi hv hn hG hf
    obtain ⟨succs, hs⟩ : ∃ succs, graph[v]? = some succs := ⟨_, List.getElem?_eq_getElem hv⟩
    have h1 := unvisited_enter hv hn hi.cnt
    obtain ⟨s', e, h⟩ := visit_spec hg fuel ih hi hn hG succs (enter v s) (fun w hw => ⟨succs, hs, hw⟩) (enter_inv hi hv hn hG hs) (by omega)
    refine ⟨_, ?_, close_post hi hn h⟩
    rw [dfs, hs]
    simp only [Option.bind_eq_bind, Option.bind_some, e]

theorem outer_spec (hg : ∀ succs ∈ graph, ∀ w ∈ succs, w < graph.length) (fuel : Nat) : ∀ (vs : List Nat) (s : St),
    (∀ v ∈ vs, v < graph.length) → Inv graph [] s → unvisited graph s ≤ fuel →
    ∃ s', outer graph fuel vs s = some s' ∧ Inv graph [] s' ∧ (∀ u, s.num u ≠ -1 → s'.num u ≠ -1) ∧ ∀ v ∈ vs, s'.num v ≠ -1
  | [], s, _, h, _ => ⟨s, rfl, h, fun _ h => h, by simp⟩
  | v :: vs, s, hvs, h, hf => by
    unfold outer
    by_cases hn : s.num v = -1
    · rw [if_pos hn]
      obtain ⟨s1, e1, p⟩ := dfs_spec hg fuel [] v s h (hvs v (by simp)) hn (by simp) hf
      obtain ⟨s2, e2, h2, h3, h4⟩ := outer_spec hg fuel vs s1 (fun x hx => hvs x (by simp [hx])) p.inv
        (Nat.le_trans (unvisited_mono (fun u hu => (p.ext u hu).1)) hf)
      refine ⟨s2, by rw [e1]; exact e2, h2, ?_, ?_⟩
      · intro u hu; apply h3; rw [(p.ext u hu).1]; exact hu
      · intro x hx
        rcases List.mem_cons.mp hx with rfl | hx
        · exact h3 x p.vis
        · exact h4 x hx
    · rw [if_neg hn]
      obtain ⟨s2, e2, h2, h3, h4⟩ := outer_spec hg fuel vs s (fun x hx => hvs x (by simp [hx])) h hf
      refine ⟨s2, e2, h2, h3, ?_⟩
      intro x hx
      rcases List.mem_cons.mp hx with rfl | hx
      · exact h3 x hn
      · exact h4 x hx

end Verif.Sccs
