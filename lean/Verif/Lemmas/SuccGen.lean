import Verif.Model.SuccGen
import Mathlib.Data.List.Basic
import Mathlib.Data.List.Sort
import Mathlib.Tactic.Cases

namespace Verif.SuccGen

/-! ### orders -/

theorem factLt_iff (a b : Fact) : factLt a b = true ↔ a.var < b.var ∨ (a.var = b.var ∧ a.val < b.val) := by
  simp [factLt]

theorem factLt_irrefl (a : Fact) : factLt a a = false := by
  rw [← Bool.not_eq_true, factLt_iff]; omega

theorem fact_eq {a b : Fact} (h1 : factLt a b = false) (h2 : factLt b a = false) : a = b := by
  rw [← Bool.not_eq_true, factLt_iff] at h1 h2
  cases a; cases b; simp at *; omega

theorem lexLt_cons_same (f : Fact) (x y : List Fact) : lexLt (f :: x) (f :: y) = lexLt x y := by
  simp [lexLt, factLt_irrefl]

/-- `lexLe a b` is `!(b < a)` -/
def lexLe (a b : List Fact) : Bool := !lexLt b a

theorem lexLe_total : ∀ a b, (lexLe a b || lexLe b a) = true
  | [], b => by cases b <;> simp [lexLe, lexLt]
  | a :: x, [] => by simp [lexLe, lexLt]
  | a :: x, b :: y => by
    have ih := lexLe_total x y
    simp only [lexLe, lexLt] at *
    by_cases h1 : factLt a b = true
    · have : factLt b a = false := by
        rw [← Bool.not_eq_true, factLt_iff]; rw [factLt_iff] at h1; omega
      simp [h1, this]
    · by_cases h2 : factLt b a = true
      · simp [h1, h2]
      · simp [h1, h2]; simpa using ih

theorem lexLe_trans : ∀ a b c, lexLe a b = true → lexLe b c = true → lexLe a c = true
  | [], b, c => by cases c <;> simp [lexLe, lexLt]
  | a :: x, [], c => by simp [lexLe, lexLt]
  | a :: x, b :: y, [] => by simp [lexLe, lexLt]
  | a :: x, b :: y, c :: z => by
    have ih := lexLe_trans x y z
    simp only [lexLe, lexLt, Bool.not_eq_true'] at *
    intro h1 h2
    by_cases hca : factLt c a = true
    · exfalso
      by_cases hba : factLt b a = true
      · simp [hba] at h1
      · by_cases hcb : factLt c b = true
        · simp [hcb] at h2
        · rw [factLt_iff] at *; omega
    · by_cases hac : factLt a c = true
      · simp [hca, hac]
      · have e : a = c := fact_eq (by simpa using hac) (by simpa using hca)
        subst e
        simp only [factLt_irrefl, Bool.false_eq_true, if_false]
        by_cases hba : factLt b a = true
        · simp [hba] at h1
        · by_cases hab : factLt a b = true
          · simp [hab] at h2
          · have e : a = b := fact_eq (by simpa using hab) (by simpa using hba)
            subst e
            simp only [factLt_irrefl, Bool.false_eq_true, if_false] at h1 h2
            exact ih h1 h2

/-! ### grouping -/

variable {κ : Type} [DecidableEq κ]

theorem advance_spec (key : OpInfo → Option κ) (k : κ) : ∀ (os : List OpInfo), (∀ o ∈ os, (key o).isSome = true) →
    ∃ a b, advance key k os = some (a, b) ∧ os = a ++ b ∧ (∀ o ∈ a, key o = some k) ∧
      (∀ o, b.head? = some o → key o ≠ some k)
  | [], _ => ⟨[], [], rfl, rfl, by simp, by simp⟩
  | o :: os, h => by
    obtain ⟨a, b, e, hos, ha, hb⟩ := advance_spec key k os (fun o ho => h o (by simp [ho]))
    obtain ⟨k', hk'⟩ := Option.isSome_iff_exists.mp (h o (by simp))
    unfold advance
    rw [hk']
    simp only
    split
    · rename_i hkk
      subst hkk
      refine ⟨o :: a, b, by rw [e]; rfl, by rw [hos]; rfl, ?_, hb⟩
      intro x hx
      rcases List.mem_cons.mp hx with rfl | hx
      · exact hk'
      · exact ha x hx
    · rename_i hkk
      refine ⟨[], o :: os, rfl, rfl, by simp, ?_⟩
      intro x hx
      simp only [List.head?_cons, Option.some.injEq] at hx
      subst hx
      rw [hk']
      simpa using hkk

theorem next_spec (key : OpInfo → Option κ) {os : List OpInfo} (hne : os ≠ []) (h : ∀ o ∈ os, (key o).isSome = true) :
    ∃ k a b, next key os = some ((k, a), b) ∧ os = a ++ b ∧ a ≠ [] ∧ (∀ o ∈ a, key o = some k) ∧
      (∀ o, b.head? = some o → key o ≠ some k) := by
  cases os with
  | nil => exact absurd rfl hne
  | cons o os =>
    obtain ⟨k, hk⟩ := Option.isSome_iff_exists.mp (h o (by simp))
    obtain ⟨a, b, e, hos, ha, hb⟩ := advance_spec key k os (fun o ho => h o (by simp [ho]))
    refine ⟨k, o :: a, b, ?_, by rw [hos]; rfl, by simp, ?_, hb⟩
    · simp [next, hk, e]
    · intro x hx
      rcases List.mem_cons.mp hx with rfl | hx
      · exact hk
      · exact ha x hx

/-! ### generators -/

/-- operators of the range whose remaining preconditions hold -/
def sel (s : State) (depth : Nat) (os : List OpInfo) : List Nat :=
  (os.filter (fun o => decide (allHold (o.pre.drop depth) s))).map (·.op)

theorem sel_append (s : State) (d : Nat) (a b : List OpInfo) : sel s d (a ++ b) = sel s d a ++ sel s d b := by
  simp [sel]

/-- the generator yields the selected operators (in some order) -/
def Good (s : State) (g : Gen) (depth : Nat) (os : List OpInfo) : Prop :=
  g ≠ .null ∧ ∀ acc, ∃ l, gen s g acc = some (acc ++ l) ∧ l.Perm (sel s depth os)

/-- what is known about a range at some depth -/
structure Range (t : Task) (depth : Nat) (os : List OpInfo) : Prop where
  len : ∀ o ∈ os, depth ≤ o.pre.length
  valid : ∀ o ∈ os, ∀ f ∈ o.pre, t.ValidFact f
  sorted : os.Pairwise (fun a b => lexLe (a.pre.drop depth) (b.pre.drop depth) = true)

theorem Range.sublist {t : Task} {depth : Nat} {os os' : List OpInfo} (h : Range t depth os) (hs : os'.Sublist os) :
    Range t depth os' :=
  ⟨fun o ho => h.len o (hs.subset ho), fun o ho => h.valid o (hs.subset ho), h.sorted.sublist hs⟩

theorem allHold_drop {s : State} {o : OpInfo} {depth : Nat} {f : Fact} (hf : o.pre[depth]? = some f) :
    allHold (o.pre.drop depth) s ↔ (f.holds s ∧ allHold (o.pre.drop (depth + 1)) s) := by
  have hlt := (List.getElem?_eq_some_iff.mp hf).1
  rw [List.drop_eq_getElem_cons hlt]
  have : o.pre[depth] = f := by simpa [hlt] using hf
  rw [this]
  simp [allHold]

theorem drop_eq {o : OpInfo} {depth : Nat} {f : Fact} (hf : o.pre[depth]? = some f) :
    o.pre.drop depth = f :: o.pre.drop (depth + 1) := by
  have hlt := (List.getElem?_eq_some_iff.mp hf).1
  rw [List.drop_eq_getElem_cons hlt]
  have : o.pre[depth] = f := by simpa [hlt] using hf
  rw [this]

/-- what the loop over value groups yields -/
structure Covers (t : Task) (s : State) (depth v : Nat) (vg : List (Nat × Gen)) (range : List OpInfo) : Prop where
  nodup : (vg.map (·.1)).Nodup
  good : ∀ p ∈ vg, Good s p.2 (depth + 1) (range.filter (fun o => decide (o.pre[depth]? = some ⟨v, p.1⟩)))
  occurs : ∀ p ∈ vg, ∃ o ∈ range, o.pre[depth]? = some ⟨v, p.1⟩
  all : ∀ o ∈ range, ∃ p ∈ vg, o.pre[depth]? = some ⟨v, p.1⟩

theorem valueGroups_spec {t : Task} {s : State} {rec : List OpInfo → Option Gen} {depth v : Nat}
    (P : OpInfo → Prop)
    (hP : ∀ os, os ≠ [] → (∀ o ∈ os, P o) → Range t (depth + 1) os → ∃ g, rec os = some g ∧ Good s g (depth + 1) os) :
    ∀ (n : Nat) (range : List OpInfo), range.length ≤ n → Range t depth range → (∀ o ∈ range, P o) →
      (∀ o ∈ range, ∃ f, o.pre[depth]? = some f ∧ f.var = v) →
      ∃ vg, valueGroups rec depth n range = some vg ∧ Covers t s depth v vg range := by
  intro n
  induction n with
  | zero =>
    intro range hn _ _ _
    have : range = [] := List.length_eq_zero_iff.mp (by omega)
    subst this
    exact ⟨[], rfl, by constructor <;> simp⟩
  | succ n ih =>
    intro range hn hr hp hv
    by_cases hne : range = []
    · subst hne
      exact ⟨[], rfl, by constructor <;> simp⟩
    · obtain ⟨k, a, b, e, hos, ha, hka, hkb⟩ := next_spec (fun o => o.getValue depth) hne (by
        intro o ho
        obtain ⟨f, hf, _⟩ := hv o ho
        simp [OpInfo.getValue, hf])
      subst hos
      have hfa : ∀ o ∈ a, o.pre[depth]? = some ⟨v, k⟩ := by
        intro o ho
        obtain ⟨f, hf, hfv⟩ := hv o (by simp [ho])
        have := hka o ho
        simp only [OpInfo.getValue, hf, Option.map_some, Option.some.injEq] at this
        rw [hf]; cases f; simp at *; exact ⟨hfv, this⟩
      have hra : Range t (depth + 1) a := by
        have h1 := hr.sublist (List.sublist_append_left a b)
        refine ⟨?_, h1.valid, ?_⟩
        · intro o ho
          exact (List.getElem?_eq_some_iff.mp (hfa o ho)).1
        · refine h1.sorted.imp_of_mem ?_
          intro x y hx hy hxy
          rw [drop_eq (hfa x hx), drop_eq (hfa y hy)] at hxy
          unfold lexLe at *
          rwa [lexLt_cons_same] at hxy
      obtain ⟨g, eg, hg⟩ := hP a ha (fun o ho => hp o (by simp [ho])) hra
      have hrb := hr.sublist (List.sublist_append_right a b)
      have hlen : 0 < a.length := List.length_pos_iff.mpr ha
      obtain ⟨vg, evg, hc⟩ := ih b (by simp at hn; omega) hrb (fun o ho => hp o (by simp [ho])) (fun o ho => hv o (by simp [ho]))
      -- keys of the rest are different
      have hgt : ∀ o ∈ b, o.pre[depth]? ≠ some ⟨v, k⟩ := by
        intro o ho
        cases b with
        | nil => simp at ho
        | cons o1 b =>
          obtain ⟨f1, hf1, hv1⟩ := hv o1 (by simp)
          obtain ⟨f, hf, hv2⟩ := hv o (by simp at ho ⊢; tauto)
          obtain ⟨o0, ho0⟩ := List.exists_mem_of_ne_nil a ha
          have h01 : k ≤ f1.val := by
            have := (List.pairwise_append.mp hr.sorted).2.2 o0 ho0 o1 (by simp)
            rw [drop_eq (hfa o0 ho0), drop_eq hf1] at this
            unfold lexLe at this
            simp only [lexLt] at this
            by_contra hlt
            have : factLt f1 ⟨v, k⟩ = true := by rw [factLt_iff]; right; exact ⟨hv1, by simp only; omega⟩
            simp [this] at *
          have h1ne : f1.val ≠ k := by
            intro e
            apply hkb o1 (by simp)
            simp [OpInfo.getValue, hf1, e]
          have h1o : f1.val ≤ f.val := by
            rcases List.mem_cons.mp ho with rfl | ho'
            · rw [hf1] at hf; simp at hf; rw [hf]
            · have := (List.pairwise_cons.mp hrb.sorted).1 o ho'
              rw [drop_eq hf1, drop_eq hf] at this
              unfold lexLe at this
              simp only [lexLt] at this
              by_contra hlt
              have : factLt f f1 = true := by rw [factLt_iff]; right; exact ⟨by omega, by omega⟩
              simp [this] at *
          rw [hf]
          intro e
          simp at e
          rw [e] at h1o
          simp only at h1o
          omega
      refine ⟨(k, g) :: vg, ?_, ?_⟩
      · cases range_eq : a ++ b with
        | nil => simp at range_eq; exact absurd range_eq.1 ha
        | cons x xs =>
          rw [range_eq] at e
          rw [valueGroups]
          · rw [e]; simp [eg, evg]
          · simp
      · refine ⟨?_, ?_, ?_, ?_⟩
        · simp only [List.map_cons, List.nodup_cons]
          refine ⟨?_, hc.nodup⟩
          intro hk
          obtain ⟨p, hp, hpk⟩ := List.mem_map.mp hk
          obtain ⟨o, ho, hoe⟩ := hc.occurs p hp
          rw [hpk] at hoe
          exact hgt o ho hoe
        · intro p hp
          rcases List.mem_cons.mp hp with rfl | hp
          · have h1 : a.filter (fun o => decide (o.pre[depth]? = some ⟨v, k⟩)) = a := by
              rw [List.filter_eq_self]; intro o ho; simp [hfa o ho]
            have h2 : b.filter (fun o => decide (o.pre[depth]? = some ⟨v, k⟩)) = [] := by
              rw [List.filter_eq_nil_iff]; intro o ho; simp [hgt o ho]
            simp only [List.filter_append, h1, h2, List.append_nil]
            exact hg
          · obtain ⟨o, ho, hoe⟩ := hc.occurs p hp
            have hne : p.1 ≠ k := by intro e; rw [e] at hoe; exact hgt o ho hoe
            have h1 : a.filter (fun o => decide (o.pre[depth]? = some ⟨v, p.1⟩)) = [] := by
              rw [List.filter_eq_nil_iff]; intro o ho; simp [hfa o ho]; exact fun e => hne e.symm
            simp only [List.filter_append, h1, List.nil_append]
            exact hc.good p hp
        · intro p hp
          rcases List.mem_cons.mp hp with rfl | hp
          · obtain ⟨o0, ho0⟩ := List.exists_mem_of_ne_nil a ha
            exact ⟨o0, by simp [ho0], hfa o0 ho0⟩
          · obtain ⟨o, ho, hoe⟩ := hc.occurs p hp
            exact ⟨o, by simp [ho], hoe⟩
        · intro o ho
          rcases List.mem_append.mp ho with ho | ho
          · exact ⟨(k, g), by simp, hfa o ho⟩
          · obtain ⟨p, hp, he⟩ := hc.all o ho
            exact ⟨p, by simp [hp], he⟩

/-! ### switches -/

theorem sel_filter {s : State} {depth v val : Nat} {range : List OpInfo} (hs : s[v]? = some val)
    (hv : ∀ o ∈ range, ∃ f, o.pre[depth]? = some f ∧ f.var = v) :
    sel s depth range = sel s (depth + 1) (range.filter (fun o => decide (o.pre[depth]? = some ⟨v, val⟩))) := by
  unfold sel
  rw [List.filter_filter]
  congr 1
  apply List.filter_congr
  intro o ho
  obtain ⟨f, hf, hfv⟩ := hv o ho
  rw [← Bool.decide_and, decide_eq_decide, allHold_drop hf, hf, and_comm]
  have : f.holds s ↔ some f = some (⟨v, val⟩ : Fact) := by
    unfold Fact.holds
    rw [hfv, hs]
    cases f
    simp at *
    constructor
    · intro h; exact ⟨hfv, h.symm⟩
    · intro h; exact h.2.symm
  rw [this]

theorem genFind_spec (s : State) (acc : List Nat) (val : Nat) : ∀ (m : List (Nat × Gen)), (m.map (·.1)).Nodup →
    (∀ g, (val, g) ∈ m → genFind s m val acc = gen s g acc) ∧ ((∀ p ∈ m, p.1 ≠ val) → genFind s m val acc = some acc)
  | [], _ => by simp [genFind]
  | (k, g) :: m, h => by
    simp only [List.map_cons, List.nodup_cons] at h
    obtain ⟨h1, h2⟩ := genFind_spec s acc val m h.2
    constructor
    · intro g' hg'
      rcases List.mem_cons.mp hg' with e | hg'
      · simp only [Prod.mk.injEq] at e
        rw [genFind, if_pos e.1.symm, e.2]
      · have : k ≠ val := by
          intro e
          apply h.1
          rw [e]
          exact List.mem_map.mpr ⟨(val, g'), hg', rfl⟩
        rw [genFind, if_neg this]
        exact h1 g' hg'
    · intro hp
      rw [genFind, if_neg (hp (k, g) (by simp))]
      exact h2 (fun p hp' => hp p (by simp [hp']))

theorem hashPut_new (m : List (Nat × Gen)) (k : Nat) (g : Gen) (h : ∀ p ∈ m, p.1 ≠ k) : hashPut m k g = m ++ [(k, g)] := by
  induction m with
  | nil => rfl
  | cons p m ih =>
    obtain ⟨k', g'⟩ := p
    rw [hashPut, if_neg (h (k', g') (by simp)), ih (fun p hp => h p (by simp [hp]))]
    rfl

theorem hashFold (vg : List (Nat × Gen)) : ∀ (m : List (Nat × Gen)), ((m ++ vg).map (·.1)).Nodup →
    vg.foldl (fun m p => hashPut m p.1 p.2) m = m ++ vg := by
  induction vg with
  | nil => intro m _; simp
  | cons p vg ih =>
    intro m h
    rw [List.foldl_cons, hashPut_new, ih]
    · simp
    · simpa using h
    · intro q hq e
      rw [List.map_append, List.nodup_append] at h
      exact h.2.2 q.1 (List.mem_map.mpr ⟨q, hq, rfl⟩) p.1 (by simp) e

theorem genNth_spec (s : State) (acc : List Nat) : ∀ (gs : List Gen) (val : Nat) (g : Gen), gs[val]? = some g →
    (g = .null → genNth s gs val acc = some acc) ∧ (g ≠ .null → genNth s gs val acc = gen s g acc)
  | [], _, _, h => by simp at h
  | g :: gs, 0, g', h => by
    simp only [List.getElem?_cons_zero, Option.some.injEq] at h
    subst h
    cases g <;> simp [genNth]
  | g :: gs, n + 1, g', h => by
    simp only [List.getElem?_cons_succ] at h
    rw [genNth]
    exact genNth_spec s acc gs n g' h

theorem vectorFold (n : Nat) (vg : List (Nat × Gen)) : ∀ (m : List Gen), m.length = n → (vg.map (·.1)).Nodup →
    (∀ p ∈ vg, p.1 < n) →
    ∃ m', vg.foldlM (fun m p => vectorPut m p.1 p.2) m = some m' ∧ m'.length = n ∧
      (∀ p ∈ vg, m'[p.1]? = some p.2) ∧ ∀ i : Nat, (∀ p ∈ vg, p.1 ≠ i) → m'[i]? = m[i]? := by
  induction vg with
  | nil => intro m hm _ _; exact ⟨m, rfl, hm, by simp, by simp⟩
  | cons p vg ih =>
    intro m hm hn hl
    simp only [List.map_cons, List.nodup_cons] at hn
    obtain ⟨m', e, h1, h2, h3⟩ := ih (m.set p.1 p.2) (by simp [hm]) hn.2 (fun q hq => hl q (by simp [hq]))
    refine ⟨m', ?_, h1, ?_, ?_⟩
    · rw [List.foldlM_cons, vectorPut, if_pos (by rw [hm]; exact hl p (by simp))]
      exact e
    · intro q hq
      rcases List.mem_cons.mp hq with rfl | hq
      · rw [h3, List.getElem?_set_self (by rw [hm]; exact hl q (by simp))]
        intro r hr e
        exact hn.1 (List.mem_map.mpr ⟨r, hr, e⟩)
      · exact h2 q hq
    · intro i hi
      rw [h3 i (fun q hq => hi q (by simp [hq])), List.getElem?_set_ne (hi p (by simp))]

theorem constructSwitch_spec {t : Task} {s : State} (hs : t.ValidState s) (useHash : Nat → Nat → Bool) {depth v : Nat}
    {vg : List (Nat × Gen)} {range : List OpInfo} (hne : range ≠ []) (hr : Range t depth range)
    (hv : ∀ o ∈ range, ∃ f, o.pre[depth]? = some f ∧ f.var = v) (hc : Covers t s depth v vg range) :
    ∃ g, constructSwitch t useHash v vg = some g ∧ Good s g depth range := by
  have hvalid : ∀ p ∈ vg, t.ValidFact ⟨v, p.1⟩ := by
    intro p hp
    obtain ⟨o, ho, he⟩ := hc.occurs p hp
    exact hr.valid o ho _ (List.mem_of_getElem? he)
  obtain ⟨o0, ho0⟩ := List.exists_mem_of_ne_nil range hne
  obtain ⟨p0, hp0, _⟩ := hc.all o0 ho0
  obtain ⟨d, hd, _⟩ := hvalid p0 hp0
  simp only at hd
  have hvl : v < s.length := by
    rw [hs.1]; exact (List.getElem?_eq_some_iff.mp hd).1
  have hsv : s[v]? = some s[v] := List.getElem?_eq_getElem hvl
  have hdom : s[v] < d.domain := hs.2 v _ d hsv hd
  have hsel := sel_filter (s := s) hsv hv
  -- result depending on whether the value has a child
  have hnone : (∀ p ∈ vg, p.1 ≠ s[v]) → sel s depth range = [] := by
    intro hno
    rw [hsel]
    have : range.filter (fun o => decide (o.pre[depth]? = some ⟨v, s[v]⟩)) = [] := by
      rw [List.filter_eq_nil_iff]
      intro o ho he
      obtain ⟨p, hp, hpe⟩ := hc.all o ho
      rw [hpe] at he
      simp at he
      exact hno p hp he
    rw [this]
    rfl
  unfold constructSwitch
  rw [hd]
  simp only [Option.bind_eq_bind, Option.bind_some]
  split
  · simp at hp0
  · rename_i value g
    refine ⟨_, rfl, by simp, ?_⟩
    intro acc
    simp only [gen, hsv]
    split
    · rename_i hval
      obtain ⟨_, hg⟩ := hc.good (value, g) (by simp)
      rw [hsel, ← hval]
      exact hg acc
    · rename_i hval
      exact ⟨[], by simp, by rw [hnone (by intro p hp; simp at hp; rw [hp]; exact hval)]⟩
  · split
    · refine ⟨_, rfl, by simp, ?_⟩
      intro acc
      rw [hashFold _ _ (by simpa using hc.nodup)]
      simp only [List.nil_append, gen, hsv]
      obtain ⟨h1, h2⟩ := genFind_spec s acc s[v] vg hc.nodup
      by_cases hex : ∃ p ∈ vg, p.1 = s[v]
      · obtain ⟨⟨k, g⟩, hp, hk⟩ := hex
        simp only at hk
        subst hk
        rw [h1 g hp, hsel]
        exact (hc.good _ hp).2 acc
      · have hno : ∀ p ∈ vg, p.1 ≠ s[v] := fun p hp e => hex ⟨p, hp, e⟩
        rw [h2 hno]
        exact ⟨[], by simp, by rw [hnone hno]⟩
    · obtain ⟨m', e, h1, h2, h3⟩ := vectorFold d.domain vg (List.replicate d.domain .null) (by simp) hc.nodup (by
        intro p hp
        obtain ⟨d', hd', hlt⟩ := hvalid p hp
        simp only at hd'
        rw [hd] at hd'
        simp only [Option.some.injEq] at hd'
        subst hd'
        exact hlt)
      rw [e]
      refine ⟨_, rfl, by simp, ?_⟩
      intro acc
      simp only [gen, hsv]
      by_cases hex : ∃ p ∈ vg, p.1 = s[v]
      · obtain ⟨⟨k, g⟩, hp, hk⟩ := hex
        simp only at hk
        subst hk
        obtain ⟨hnn, hg⟩ := hc.good _ hp
        rw [(genNth_spec s acc m' _ g (h2 _ hp)).2 hnn, hsel]
        exact hg acc
      · have hno : ∀ p ∈ vg, p.1 ≠ s[v] := fun p hp e => hex ⟨p, hp, e⟩
        have hm' : m'[s[v]]? = some .null := by
          rw [h3 _ hno, List.getElem?_replicate, if_pos hdom]
        rw [(genNth_spec s acc m' _ _ hm').1 rfl]
        exact ⟨[], by simp, by rw [hnone hno]⟩

/-! ### forks -/

def GoodAll (s : State) (gs : List Gen) (depth : Nat) (os : List OpInfo) : Prop :=
  (∀ g ∈ gs, g ≠ .null) ∧ ∀ acc, ∃ l, genAll s gs acc = some (acc ++ l) ∧ l.Perm (sel s depth os)

theorem constructFork_spec {s : State} {gs : List Gen} {depth : Nat} {os : List OpInfo} (h : GoodAll s gs depth os) :
    Good s (constructFork gs) depth os := by
  obtain ⟨h1, h2⟩ := h
  unfold constructFork
  split
  · rename_i g
    refine ⟨h1 g (by simp), ?_⟩
    intro acc
    obtain ⟨l, e, hl⟩ := h2 acc
    refine ⟨l, ?_, hl⟩
    rw [← e]; simp [genAll]
  · rename_i g1 g2
    refine ⟨by simp, ?_⟩
    intro acc
    obtain ⟨l, e, hl⟩ := h2 acc
    refine ⟨l, ?_, hl⟩
    rw [← e]; simp [genAll, gen]
  · refine ⟨by simp, ?_⟩
    intro acc
    obtain ⟨l, e, hl⟩ := h2 acc
    exact ⟨l, by rw [← e, gen], hl⟩

theorem constructLeaf_spec {s : State} {depth : Nat} {os : List OpInfo} (hne : os ≠ [])
    (h : ∀ o ∈ os, o.pre.length = depth) : ∃ g, constructLeaf os = some g ∧ Good s g depth os := by
  have hsel : sel s depth os = os.map (·.op) := by
    unfold sel
    rw [List.filter_eq_self.mpr]
    intro o ho
    rw [← h o ho]
    simp [allHold]
  unfold constructLeaf
  split
  · rename_i he; simp at he; exact absurd he hne
  · rename_i o he
    exact ⟨_, rfl, by simp, fun acc => ⟨[o], by simp [gen], by rw [hsel, he]⟩⟩
  · exact ⟨_, rfl, by simp, fun acc => ⟨os.map (·.op), by simp [gen], by rw [hsel]⟩⟩

theorem varGroups_spec {t : Task} {s : State} (hs : t.ValidState s) (useHash : Nat → Nat → Bool)
    {rec : List OpInfo → Option Gen} {depth : Nat} (P : OpInfo → Prop)
    (hP : ∀ os, os ≠ [] → (∀ o ∈ os, P o) → Range t (depth + 1) os → ∃ g, rec os = some g ∧ Good s g (depth + 1) os) :
    ∀ (n : Nat) (range : List OpInfo), range.length ≤ n → Range t depth range → (∀ o ∈ range, P o) →
      ∃ gs, varGroups t useHash rec depth n range = some gs ∧ GoodAll s gs depth range := by
  intro n
  induction n with
  | zero =>
    intro range hn _ _
    have : range = [] := List.length_eq_zero_iff.mp (by omega)
    subst this
    exact ⟨[], rfl, by simp, fun acc => ⟨[], by simp [genAll], by simp [sel]⟩⟩
  | succ n ih =>
    intro range hn hr hp
    by_cases hne : range = []
    · subst hne
      exact ⟨[], rfl, by simp, fun acc => ⟨[], by simp [genAll], by simp [sel]⟩⟩
    · obtain ⟨k, a, b, e, hos, ha, hka, _⟩ := next_spec (fun o => o.getVar depth) hne (by
        intro o ho
        unfold OpInfo.getVar
        split
        · rfl
        · rw [List.getElem?_eq_getElem (by have := hr.len o ho; omega)]; rfl)
      subst hos
      have hra := hr.sublist (List.sublist_append_left a b)
      have hrb := hr.sublist (List.sublist_append_right a b)
      have hlen : 0 < a.length := List.length_pos_iff.mpr ha
      obtain ⟨gs, egs, hgs⟩ := ih b (by simp at hn; omega) hrb (fun o ho => hp o (by simp [ho]))
      have hnode : ∃ g, (match k with
          | none => constructLeaf a
          | some var => (valueGroups rec depth a.length a).bind (fun vg => constructSwitch t useHash var vg)) = some g ∧
          Good s g depth a := by
        cases k with
        | none =>
          apply constructLeaf_spec ha
          intro o ho
          have := hka o ho
          unfold OpInfo.getVar at this
          split at this
          · rename_i h; exact h.symm
          · simp at this
        | some v =>
          have hv : ∀ o ∈ a, ∃ f, o.pre[depth]? = some f ∧ f.var = v := by
            intro o ho
            have := hka o ho
            unfold OpInfo.getVar at this
            split at this
            · simp at this
            · simp at this
              exact this
          obtain ⟨vg, evg, hc⟩ := valueGroups_spec (s := s) P hP a.length a (Nat.le_refl _) hra
            (fun o ho => hp o (by simp [ho])) hv
          obtain ⟨g, eg, hg⟩ := constructSwitch_spec hs useHash ha hra hv hc
          exact ⟨g, by simp [evg, eg], hg⟩
      obtain ⟨g, eg, hg⟩ := hnode
      refine ⟨g :: gs, ?_, ?_, ?_⟩
      · cases range_eq : a ++ b with
        | nil => simp at range_eq; exact absurd range_eq.1 ha
        | cons x xs =>
          rw [range_eq] at e
          rw [varGroups]
          · rw [e]
            simp only [Option.bind_eq_bind, Option.bind_some]
            cases k with
            | none => simp only at eg; simp [eg, egs]
            | some v =>
              simp only at eg
              simp only [eg, egs, Option.bind_some]
          · simp
      · intro g' hg'
        rcases List.mem_cons.mp hg' with rfl | hg'
        · exact hg.1
        · exact hgs.1 g' hg'
      · intro acc
        obtain ⟨l1, e1, h1⟩ := hg.2 acc
        obtain ⟨l2, e2, h2⟩ := hgs.2 (acc ++ l1)
        refine ⟨l1 ++ l2, ?_, ?_⟩
        · rw [genAll, e1]; simp [e2]
        · rw [sel_append]; exact h1.append h2

theorem constructRecursive_spec {t : Task} {s : State} (hs : t.ValidState s) (useHash : Nat → Nat → Bool) :
    ∀ (fuel depth : Nat) (range : List OpInfo), 0 < fuel → Range t depth range → (∀ o ∈ range, o.pre.length < fuel + depth) →
      ∃ g, constructRecursive t useHash fuel depth range = some g ∧ Good s g depth range := by
  intro fuel
  induction fuel with
  | zero => intro _ _ h; omega
  | succ fuel ih =>
    intro depth range _ hr hl
    obtain ⟨gs, egs, hgs⟩ := varGroups_spec hs useHash (rec := constructRecursive t useHash fuel (depth + 1))
      (fun o => o.pre.length < fuel + 1 + depth) (by
        intro os hne hP hr'
        obtain ⟨o, ho⟩ := List.exists_mem_of_ne_nil os hne
        have h1 := hP o ho
        have h2 := hr'.len o ho
        exact ih (depth + 1) os (by omega) hr' (fun o ho => by have := hP o ho; omega)) range.length range (Nat.le_refl _) hr hl
    exact ⟨_, by rw [constructRecursive, egs]; rfl, constructFork_spec hgs⟩

theorem foldl_max_ge (l : List Nat) : ∀ (b : Nat), b ≤ l.foldl max b ∧ ∀ x ∈ l, x ≤ l.foldl max b := by
  induction l with
  | nil => intro b; simp
  | cons y l ih =>
    intro b
    obtain ⟨h1, h2⟩ := ih (max b y)
    constructor
    · simp only [List.foldl_cons]; omega
    · intro x hx
      simp only [List.foldl_cons]
      rcases List.mem_cons.mp hx with rfl | hx
      · omega
      · exact h2 x hx

theorem create_spec {t : Task} {s : State} (hs : t.ValidState s) (hpre : ∀ o ∈ t.ops, ∀ f ∈ o.pre, t.ValidFact f)
    (useHash : Nat → Nat → Bool) :
    ∃ g infos, create t useHash = some g ∧ Good s g 0 infos ∧
      infos.Perm (t.ops.zipIdx.map (fun p => { op := p.2, pre := buildSortedPrecondition p.1 : OpInfo })) := by
  have hperm := List.mergeSort_perm (t.ops.zipIdx.map (fun p => { op := p.2, pre := buildSortedPrecondition p.1 : OpInfo }))
    (fun a b => !lexLt b.pre a.pre)
  have hsorted := List.pairwise_mergeSort (le := fun a b : OpInfo => !lexLt b.pre a.pre)
    (fun a b c h1 h2 => lexLe_trans a.pre b.pre c.pre h1 h2) (fun a b => lexLe_total a.pre b.pre)
    (t.ops.zipIdx.map (fun p => { op := p.2, pre := buildSortedPrecondition p.1 : OpInfo }))
  have hmem : ∀ o ∈ (t.ops.zipIdx.map (fun p => { op := p.2, pre := buildSortedPrecondition p.1 : OpInfo })).mergeSort
      (fun a b => !lexLt b.pre a.pre), ∃ op ∈ t.ops, o.pre.Perm op.pre := by
    intro o ho
    have := hperm.subset ho
    obtain ⟨p, hp, rfl⟩ := List.mem_map.mp this
    exact ⟨p.1, List.fst_mem_of_mem_zipIdx hp, List.mergeSort_perm _ _⟩
  obtain ⟨g, eg, hg⟩ := constructRecursive_spec hs useHash ((t.ops.map (·.pre.length)).foldl max 0 + 1) 0 _ (by omega)
    ⟨by intro o _; omega, by
      intro o ho f hf
      obtain ⟨op, hop, hperm'⟩ := hmem o ho
      exact hpre op hop f (hperm'.subset hf), by
      refine hsorted.imp ?_
      intro a b h
      simpa [lexLe] using h⟩ (by
      intro o ho
      obtain ⟨op, hop, hperm'⟩ := hmem o ho
      rw [hperm'.length_eq]
      have := (foldl_max_ge (t.ops.map (·.pre.length)) 0).2 op.pre.length (List.mem_map.mpr ⟨op, hop, rfl⟩)
      omega)
  exact ⟨g, _, eg, hg, hperm⟩

end Verif.SuccGen
