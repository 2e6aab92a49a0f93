import Verif.Model.PerTask
import Mathlib.Data.List.Perm.Basic
import Mathlib.Data.List.Nodup

/-
C85: data that is associated with tasks.
-/
namespace Verif.PerTask

variable {T E : Type}

@[simp] theorem upd_same {α : Type} {f : Nat → α} {a : Nat} {x : α} : upd f a x a = x := by simp [upd]

theorem upd_other {α : Type} {f : Nat → α} {a y : Nat} {x : α} (h : y ≠ a) : upd f a x y = f y := by simp [upd, h]

/-- the relation of the objects in memory to the specification -/
structure Rel (H : Heap T E) (A : Abs T E) : Prop where
  tasks : ∀ a, (H.tasks a).map (·.content) = A.tasks a
  infos : ∀ b, (H.infos b).map (·.construct) = A.infos b
  entries : ∀ b i a, H.infos b = some i → i.entries a = if (A.tasks a).isSome then A.vals b a else none
  subscribers : ∀ a t, H.tasks a = some t → t.subscribers.Nodup ∧ ∀ b, b ∈ t.subscribers ↔ ∃ i, H.infos b = some i ∧ i.entries a ≠ none
  services : ∀ b i, H.infos b = some i → i.services.Nodup ∧ ∀ a, a ∈ i.services ↔ i.entries a ≠ none

theorem Rel.empty : Rel (Heap.empty : Heap T E) Abs.empty := ⟨fun _ => rfl, fun _ => rfl, nofun, nofun, nofun⟩

theorem notifyAll_spec {a : Nat} : ∀ {l : List Nat} {H : Heap T E} {t : TaskObj T}, l.Nodup → H.tasks a = some t → (∀ b ∈ l, b ∈ t.subscribers) → (∀ b ∈ l, ∃ i, H.infos b = some i ∧ a ∈ i.services) →
    ∃ H', notifyAll a l H = some H' ∧ (∀ a', a' ≠ a → H'.tasks a' = H.tasks a') ∧ (∀ b, b ∉ l → H'.infos b = H.infos b) ∧
      ∀ b ∈ l, ∀ i, H.infos b = some i → H'.infos b = some { i with entries := upd i.entries a none, services := i.services.erase a }
  | [], H, _, _, _, _, _ => ⟨H, rfl, fun _ _ => rfl, fun _ _ => rfl, nofun⟩
  | b :: l, H, t, hn, ht, hs, hi => by
    obtain ⟨hb, hn⟩ := List.nodup_cons.mp hn
    obtain ⟨i, h1, h2⟩ := hi b List.mem_cons_self
    have hbs := hs b List.mem_cons_self
    let H2 : Heap T E := ⟨upd H.tasks a (some { t with subscribers := t.subscribers.erase b }), upd (upd H.infos b (some { i with entries := upd i.entries a none })) b (some { i with entries := upd i.entries a none, services := i.services.erase a })⟩
    have hother : ∀ b', b' ≠ b → H2.infos b' = H.infos b' := fun b' h => by simp only [H2, upd_other h]
    obtain ⟨H', k1, k2, k3, k4⟩ := notifyAll_spec (a := a) (l := l) (H := H2) (t := { t with subscribers := t.subscribers.erase b }) hn (by simp [H2])
      (fun b' hb' => (List.mem_erase_of_ne (fun h : b' = b => hb (h ▸ hb'))).mpr (hs b' (List.mem_cons_of_mem _ hb')))
      (fun b' hb' => by rw [hother b' (fun h => hb (h ▸ hb'))]; exact hi b' (List.mem_cons_of_mem _ hb'))
    refine ⟨H', ?_, fun a' h => by rw [k2 a' h]; simp only [H2, upd_other h], fun b' hb' => ?_, fun b' hb' i' hi' => ?_⟩
    · rw [notifyAll]
      simp only [notify, h1, Option.map_some, unsubscribe, ht, upd_same, hbs, h2, not_true_eq_false, if_false]
      exact k1
    · rw [List.mem_cons, not_or] at hb'
      rw [k3 b' hb'.2, hother b' hb'.1]
    · rcases List.mem_cons.mp hb' with rfl | hb'
      · rw [k3 b' hb]
        rw [h1, Option.some.injEq] at hi'
        subst hi'
        simp [H2]
      · have hne : b' ≠ b := fun h => hb (h ▸ hb')
        exact k4 b' hb' i' (by rw [hother b' hne, hi'])

theorem unsubscribeAll_spec {b : Nat} : ∀ {l : List Nat} {H : Heap T E} {i : InfoObj T E}, l.Nodup → H.infos b = some i → (∀ a ∈ l, a ∈ i.services) → (∀ a ∈ l, ∃ t, H.tasks a = some t ∧ b ∈ t.subscribers) →
    ∃ H', unsubscribeAll b l H = some H' ∧ (∀ b', b' ≠ b → H'.infos b' = H.infos b') ∧ (∀ a, a ∉ l → H'.tasks a = H.tasks a) ∧
      ∀ a ∈ l, ∀ t, H.tasks a = some t → H'.tasks a = some { t with subscribers := t.subscribers.erase b }
  | [], H, _, _, _, _, _ => ⟨H, rfl, fun _ _ => rfl, fun _ _ => rfl, nofun⟩
  | a :: l, H, i, hn, hi, hs, ht => by
    obtain ⟨ha, hn⟩ := List.nodup_cons.mp hn
    obtain ⟨t, h1, h2⟩ := ht a List.mem_cons_self
    have has := hs a List.mem_cons_self
    let H2 : Heap T E := ⟨upd H.tasks a (some { t with subscribers := t.subscribers.erase b }), upd H.infos b (some { i with services := i.services.erase a })⟩
    have hother : ∀ a', a' ≠ a → H2.tasks a' = H.tasks a' := fun a' h => by simp only [H2, upd_other h]
    obtain ⟨H', k1, k2, k3, k4⟩ := unsubscribeAll_spec (b := b) (l := l) (H := H2) (i := { i with services := i.services.erase a }) hn (by simp [H2])
      (fun a' ha' => (List.mem_erase_of_ne (fun h : a' = a => ha (h ▸ ha'))).mpr (hs a' (List.mem_cons_of_mem _ ha')))
      (fun a' ha' => by rw [hother a' (fun h => ha (h ▸ ha'))]; exact ht a' (List.mem_cons_of_mem _ ha'))
    refine ⟨H', ?_, fun b' h => by rw [k2 b' h]; simp only [H2, upd_other h], fun a' ha' => ?_, fun a' ha' t' ht' => ?_⟩
    · rw [unsubscribeAll]
      simp only [unsubscribe, h1, hi, h2, has, not_true_eq_false, if_false]
      exact k1
    · rw [List.mem_cons, not_or] at ha'
      rw [k3 a' ha'.2, hother a' ha'.1]
    · rcases List.mem_cons.mp ha' with rfl | ha'
      · rw [k3 a' ha]
        rw [h1, Option.some.injEq] at ht'
        subst ht'
        simp [H2]
      · have hne : a' ≠ a := fun h => ha (h ▸ ha')
        exact k4 a' ha' t' (by rw [hother a' hne, ht'])

theorem Rel.live {H : Heap T E} {A : Abs T E} (h : Rel H A) {a : Nat} {c : T} (ha : A.tasks a = some c) : ∃ t, H.tasks a = some t ∧ t.content = c := by
  have := h.tasks a
  rw [ha] at this
  exact Option.map_eq_some_iff.mp this

theorem Rel.liveInfo {H : Heap T E} {A : Abs T E} (h : Rel H A) {b : Nat} {f : T → E} (hb : A.infos b = some f) : ∃ i, H.infos b = some i ∧ i.construct = f := by
  have := h.infos b
  rw [hb] at this
  exact Option.map_eq_some_iff.mp this

/-- writing an entry that exists -/
theorem Rel.set {H : Heap T E} {A : Abs T E} (h : Rel H A) {a b : Nat} {i : InfoObj T E} (hi : H.infos b = some i) (he : i.entries a ≠ none) (e : E) :
    Rel { H with infos := upd H.infos b (some { i with entries := upd i.entries a (some e) }) } { A with vals := upd A.vals b (upd (A.vals b) a (some e)) } := by
  have hlive : (A.tasks a).isSome := by
    by_contra hn
    rw [h.entries b i a hi, if_neg hn] at he
    exact he rfl
  refine ⟨h.tasks, fun b' => ?_, fun b' i' a' hi' => ?_, fun a' t ht => ⟨(h.subscribers a' t ht).1, fun b' => ?_⟩, fun b' i' hi' => ?_⟩
  · by_cases hb : b' = b
    · subst hb
      simp only [upd_same, Option.map_some]
      rw [← h.infos b', hi]
      rfl
    · simp only [upd_other hb, h.infos b']
  · by_cases hb : b' = b
    · subst hb
      simp only [upd_same, Option.some.injEq] at hi'
      subst hi'
      by_cases ha : a' = a
      · subst ha
        simp [hlive]
      · simp only [upd_other ha, upd_same]
        exact h.entries b' i a' hi
    · simp only [upd_other hb] at hi' ⊢
      exact h.entries b' i' a' hi'
  · rw [(h.subscribers a' t ht).2 b']
    by_cases hb : b' = b
    · subst hb
      simp only [hi, upd_same, Option.some.injEq, exists_eq_left']
      by_cases ha : a' = a
      · subst ha
        simp [he]
      · rw [upd_other ha]
    · simp only [upd_other hb]
  · by_cases hb : b' = b
    · subst hb
      simp only [upd_same, Option.some.injEq] at hi'
      subst hi'
      refine ⟨(h.services b' i hi).1, fun a' => ?_⟩
      rw [(h.services b' i hi).2 a']
      by_cases ha : a' = a
      · subst ha
        simp [he]
      · simp only [upd_other ha]
    · simp only [upd_other hb] at hi'
      exact h.services b' i' hi'

theorem access_spec {H : Heap T E} {A : Abs T E} (h : Rel H A) {a b : Nat} {c : T} {f : T → E} (ha : A.tasks a = some c) (hb : A.infos b = some f) :
    match A.vals b a with
    | some e => access b a H = some ((e, false), H)
    | none => ∃ H', access b a H = some ((f c, true), H') ∧ Rel H' { A with vals := upd A.vals b (upd (A.vals b) a (some (f c))) } := by
  obtain ⟨t, ht, rfl⟩ := h.live ha
  obtain ⟨i, hi, rfl⟩ := h.liveInfo hb
  have he := h.entries b i a hi
  rw [ha] at he
  simp only [Option.isSome_some, if_true] at he
  cases hv : A.vals b a with
  | some e =>
    rw [hv] at he
    simp only [access, hi, he]
  | none =>
    rw [hv] at he
    simp only
    have hs1 : b ∉ t.subscribers := by
      rw [(h.subscribers a t ht).2 b]
      rintro ⟨i', hi', hne⟩
      rw [hi, Option.some.injEq] at hi'
      subst hi'
      exact hne he
    have hs2 : a ∉ i.services := by
      rw [(h.services b i hi).2 a]
      exact fun hne => hne he
    refine ⟨⟨upd H.tasks a (some { t with subscribers := b :: t.subscribers }), upd (upd H.infos b (some { i with entries := upd i.entries a (some (i.construct t.content)) })) b (some { i with entries := upd i.entries a (some (i.construct t.content)), services := a :: i.services })⟩, ?_, ?_⟩
    · simp only [access, hi, he, ht, subscribe, upd_same, hs1, hs2, if_false, Option.map_some]
    · refine ⟨fun a' => ?_, fun b' => ?_, fun b' i' a' hi' => ?_, fun a' t' ht' => ?_, fun b' i' hi' => ?_⟩
      · by_cases hx : a' = a
        · subst hx
          simp [ha]
        · simp only [upd_other hx, h.tasks a']
      · by_cases hx : b' = b
        · subst hx
          simp [hb]
        · simp only [upd_other hx, h.infos b']
      · by_cases hx : b' = b
        · subst hx
          simp only [upd_same, Option.some.injEq] at hi'
          subst hi'
          by_cases hy : a' = a
          · subst hy
            simp [ha]
          · simp only [upd_other hy, upd_same]
            exact h.entries b' i a' hi
        · simp only [upd_other hx] at hi' ⊢
          exact h.entries b' i' a' hi'
      · by_cases hx : a' = a
        · subst hx
          simp only [upd_same, Option.some.injEq] at ht'
          subst ht'
          refine ⟨List.nodup_cons.mpr ⟨hs1, (h.subscribers a' t ht).1⟩, fun b' => ?_⟩
          by_cases hy : b' = b
          · subst hy
            simp
          · simp only [List.mem_cons, hy, false_or, upd_other hy]
            exact (h.subscribers a' t ht).2 b'
        · simp only [upd_other hx] at ht'
          refine ⟨(h.subscribers a' t' ht').1, fun b' => ?_⟩
          rw [(h.subscribers a' t' ht').2 b']
          by_cases hy : b' = b
          · subst hy
            simp only [hi, upd_same, Option.some.injEq, exists_eq_left', upd_other hx]
          · simp only [upd_other hy]
      · by_cases hx : b' = b
        · subst hx
          simp only [upd_same, Option.some.injEq] at hi'
          subst hi'
          refine ⟨List.nodup_cons.mpr ⟨hs2, (h.services b' i hi).1⟩, fun a' => ?_⟩
          by_cases hy : a' = a
          · subst hy
            simp
          · simp only [List.mem_cons, hy, false_or, upd_other hy]
            exact (h.services b' i hi).2 a'
        · simp only [upd_other hx] at hi'
          exact h.services b' i' hi'

theorem Abs.ext' {A B : Abs T E} (h1 : A.tasks = B.tasks) (h2 : A.infos = B.infos) (h3 : A.vals = B.vals) : A = B := by
  cases A
  cases B
  simp_all

/-- every operation -/
theorem step_spec {H : Heap T E} {A A' : Abs T E} {o : Op T E} {r : Out E} (h : Rel H A) (hok : o.Ok) (hs : A.step o = some (r, A')) : ∃ H', step H o = some (r, H') ∧ Rel H' A' := by
  cases o with
  | newTask a c =>
    simp only [Abs.step] at hs
    split at hs
    · simp at hs
    rename_i hn
    simp only [Option.some.injEq, Prod.mk.injEq] at hs
    obtain ⟨rfl, rfl⟩ := hs
    have hnone : A.tasks a = none := by simpa using hn
    have hH : H.tasks a = none := by
      have := h.tasks a
      rw [hnone] at this
      simpa using this
    have hent : ∀ b i, H.infos b = some i → i.entries a = none := fun b i hi => by rw [h.entries b i a hi, hnone]; rfl
    refine ⟨{ H with tasks := upd H.tasks a (some ⟨c, []⟩) }, by simp only [step, hH, Option.isSome_none, Bool.false_eq_true, if_false], fun a' => ?_, h.infos, fun b i a' hi => ?_, fun a' t ht => ?_, h.services⟩
    · by_cases hx : a' = a
      · subst hx
        simp
      · simp only [upd_other hx, h.tasks a']
    · by_cases hx : a' = a
      · subst hx
        simp [hent b i hi]
      · simp only [upd_other hx]
        exact h.entries b i a' hi
    · by_cases hx : a' = a
      · subst hx
        simp only [upd_same, Option.some.injEq] at ht
        subst ht
        refine ⟨List.nodup_nil, fun b => ⟨nofun, ?_⟩⟩
        rintro ⟨i, hi, hne⟩
        exact absurd (hent b i hi) hne
      · simp only [upd_other hx] at ht
        exact h.subscribers a' t ht
  | newInfo b f =>
    simp only [Abs.step] at hs
    split at hs
    · simp at hs
    rename_i hn
    simp only [Option.some.injEq, Prod.mk.injEq] at hs
    obtain ⟨rfl, rfl⟩ := hs
    have hnone : A.infos b = none := by simpa using hn
    have hH : H.infos b = none := by
      have := h.infos b
      rw [hnone] at this
      simpa using this
    refine ⟨{ H with infos := upd H.infos b (some ⟨f, fun _ => none, []⟩) }, by simp only [step, hH, Option.isSome_none, Bool.false_eq_true, if_false], h.tasks, fun b' => ?_, fun b' i a hi => ?_, fun a t ht => ⟨(h.subscribers a t ht).1, fun b' => ?_⟩, fun b' i hi => ?_⟩
    · by_cases hx : b' = b
      · subst hx
        simp
      · simp only [upd_other hx, h.infos b']
    · by_cases hx : b' = b
      · subst hx
        simp only [upd_same, Option.some.injEq] at hi
        subst hi
        simp
      · simp only [upd_other hx] at hi ⊢
        exact h.entries b' i a hi
    · rw [(h.subscribers a t ht).2 b']
      by_cases hx : b' = b
      · subst hx
        simp [hH]
      · simp only [upd_other hx]
    · by_cases hx : b' = b
      · subst hx
        simp only [upd_same, Option.some.injEq] at hi
        subst hi
        simp
      · simp only [upd_other hx] at hi
        exact h.services b' i hi
  | read b a =>
    simp only [Abs.step] at hs
    split at hs
    · rename_i f c hb ha
      have hacc := access_spec h ha hb
      split at hs
      · rename_i e hv
        rw [hv] at hacc
        simp only [Option.some.injEq, Prod.mk.injEq] at hs hacc
        obtain ⟨rfl, rfl⟩ := hs
        exact ⟨H, by simp only [step, hacc, Option.map_some], h⟩
      · rename_i hv
        rw [hv] at hacc
        simp only at hacc
        obtain ⟨H', h1, h2⟩ := hacc
        simp only [Option.some.injEq, Prod.mk.injEq] at hs
        obtain ⟨rfl, rfl⟩ := hs
        exact ⟨H', by simp only [step, h1, Option.map_some], h2⟩
    · simp at hs
  | write b a e =>
    simp only [Abs.step] at hs
    split at hs
    · rename_i hl
      simp only [Option.some.injEq, Prod.mk.injEq] at hs
      obtain ⟨rfl, rfl⟩ := hs
      obtain ⟨f, hb⟩ := Option.isSome_iff_exists.mp hl.1
      obtain ⟨c, ha⟩ := Option.isSome_iff_exists.mp hl.2
      have hacc := access_spec h ha hb
      cases hv : A.vals b a with
      | some e' =>
        rw [hv] at hacc
        simp only at hacc
        obtain ⟨i, hi, _⟩ := h.liveInfo hb
        have he : i.entries a ≠ none := by
          rw [h.entries b i a hi, ha, hv]
          simp
        exact ⟨_, by simp only [step, assign, hacc, hi, Option.map_some], h.set hi he e⟩
      | none =>
        rw [hv] at hacc
        simp only at hacc
        obtain ⟨H', h1, h2⟩ := hacc
        obtain ⟨i, hi, _⟩ := h2.liveInfo (b := b) (f := f) hb
        have he : i.entries a ≠ none := by
          rw [h2.entries b i a hi]
          simp [ha]
        refine ⟨{ H' with infos := upd H'.infos b (some { i with entries := upd i.entries a (some e) }) }, by simp only [step, assign, h1, hi, Option.map_some], ?_⟩
        have := h2.set hi he e
        rwa [show ({ A with vals := upd A.vals b (upd (A.vals b) a (some e)) } : Abs T E) = { A with vals := upd (upd A.vals b (upd (A.vals b) a (some (f c)))) b (upd (upd A.vals b (upd (A.vals b) a (some (f c))) b) a (some e)) } from
          Abs.ext' rfl rfl (by funext x y; by_cases hx : x = b <;> by_cases hy : y = a <;> simp [upd, hx, hy])]
    · simp at hs
  | destroyTask a iter =>
    simp only [Abs.step] at hs
    split at hs
    · rename_i hl
      simp only [Option.some.injEq, Prod.mk.injEq] at hs
      obtain ⟨rfl, rfl⟩ := hs
      obtain ⟨c, ha⟩ := Option.isSome_iff_exists.mp hl
      obtain ⟨t, ht, _⟩ := h.live ha
      have hp : (iter t.subscribers).Perm t.subscribers := hok _
      obtain ⟨hnd, hmem⟩ := h.subscribers a t ht
      obtain ⟨H', k1, k2, k3, k4⟩ := notifyAll_spec (a := a) (H := H) (hp.nodup_iff.mpr hnd) ht (fun b hb => hp.mem_iff.mp hb) (fun b hb => by
        obtain ⟨i, hi, hne⟩ := (hmem b).mp (hp.mem_iff.mp hb)
        exact ⟨i, hi, ((h.services b i hi).2 a).mpr hne⟩)
      have hinfo : ∀ b i', H'.infos b = some i' → ∃ i, H.infos b = some i ∧ i'.construct = i.construct ∧ i'.entries = upd i.entries a none ∧ i'.services = i.services.erase a := by
        intro b i' hi'
        by_cases hb : b ∈ iter t.subscribers
        · obtain ⟨i, hi, _⟩ := (hmem b).mp (hp.mem_iff.mp hb)
          rw [k4 b hb i hi, Option.some.injEq] at hi'
          subst hi'
          exact ⟨i, hi, rfl, rfl, rfl⟩
        · rw [k3 b hb] at hi'
          have hnone : i'.entries a = none := by
            by_contra hne
            exact hb (hp.mem_iff.mpr ((hmem b).mpr ⟨i', hi', hne⟩))
          refine ⟨i', hi', rfl, ?_, (List.erase_of_not_mem ?_).symm⟩
          · funext y
            simp only [upd]
            split
            · rename_i hy
              rw [hy, hnone]
            · rfl
          · rw [(h.services b i' hi').2 a]
            exact fun hne => hne hnone
      have hlive : ∀ b i, H.infos b = some i → ∃ i', H'.infos b = some i' := by
        intro b i hi
        by_cases hb : b ∈ iter t.subscribers
        · exact ⟨_, k4 b hb i hi⟩
        · exact ⟨i, by rw [k3 b hb, hi]⟩
      refine ⟨{ H' with tasks := upd H'.tasks a none }, by simp only [step, destroyTask, ht, k1, Option.map_some], fun a' => ?_, fun b => ?_, fun b i' a' hi' => ?_, fun a' t' ht' => ?_, fun b i' hi' => ?_⟩
      · by_cases hx : a' = a
        · subst hx
          simp
        · simp only [upd_other hx, k2 a' hx, h.tasks a']
      · rw [← h.infos b]
        cases hH : H.infos b with
        | none =>
          cases hH' : H'.infos b with
          | none => rfl
          | some i' =>
            obtain ⟨i, hi, _⟩ := hinfo b i' hH'
            rw [hH] at hi
            simp at hi
        | some i =>
          obtain ⟨i', hi'⟩ := hlive b i hH
          obtain ⟨i2, h5, h6, _⟩ := hinfo b i' hi'
          rw [hH, Option.some.injEq] at h5
          subst h5
          simp only [hi', Option.map_some, h6]
      · obtain ⟨i, hi, _, h6, _⟩ := hinfo b i' hi'
        rw [h6]
        by_cases hx : a' = a
        · subst hx
          simp
        · simp only [upd_other hx]
          exact h.entries b i a' hi
      · by_cases hx : a' = a
        · subst hx
          simp at ht'
        · simp only [upd_other hx, k2 a' hx] at ht'
          obtain ⟨m1, m2⟩ := h.subscribers a' t' ht'
          refine ⟨m1, fun b => ?_⟩
          rw [m2 b]
          constructor
          · rintro ⟨i, hi, hne⟩
            obtain ⟨i', hi'⟩ := hlive b i hi
            obtain ⟨i2, h5, _, h6, _⟩ := hinfo b i' hi'
            rw [hi, Option.some.injEq] at h5
            subst h5
            exact ⟨i', hi', by rw [h6, upd_other hx]; exact hne⟩
          · rintro ⟨i', hi', hne⟩
            obtain ⟨i, hi, _, h6, _⟩ := hinfo b i' hi'
            rw [h6, upd_other hx] at hne
            exact ⟨i, hi, hne⟩
      · obtain ⟨i, hi, _, h6, h7⟩ := hinfo b i' hi'
        obtain ⟨m1, m2⟩ := h.services b i hi
        rw [h6, h7]
        refine ⟨m1.erase a, fun a' => ?_⟩
        rw [m1.mem_erase_iff]
        by_cases hx : a' = a
        · subst hx
          simp
        · simp [hx, upd_other hx, m2 a']
    · simp at hs
  | destroyInfo b iter =>
    simp only [Abs.step] at hs
    split at hs
    · rename_i hl
      simp only [Option.some.injEq, Prod.mk.injEq] at hs
      obtain ⟨rfl, rfl⟩ := hs
      obtain ⟨f, hb⟩ := Option.isSome_iff_exists.mp hl
      obtain ⟨i, hi, _⟩ := h.liveInfo hb
      have hp : (iter i.services).Perm i.services := hok _
      obtain ⟨hnd, hmem⟩ := h.services b i hi
      have hsub : ∀ a, a ∈ i.services → ∃ t, H.tasks a = some t ∧ b ∈ t.subscribers := by
        intro a ha
        have hne := (hmem a).mp ha
        have hlv : (A.tasks a).isSome := by
          by_contra hn
          rw [h.entries b i a hi, if_neg hn] at hne
          exact hne rfl
        obtain ⟨c, hc⟩ := Option.isSome_iff_exists.mp hlv
        obtain ⟨t, ht, _⟩ := h.live hc
        exact ⟨t, ht, ((h.subscribers a t ht).2 b).mpr ⟨i, hi, hne⟩⟩
      obtain ⟨H', k1, k2, k3, k4⟩ := unsubscribeAll_spec (b := b) (H := H) (hp.nodup_iff.mpr hnd) hi (fun a ha => hp.mem_iff.mp ha) (fun a ha => hsub a (hp.mem_iff.mp ha))
      have htask : ∀ a, (H'.tasks a) = (H.tasks a).map (fun t => { t with subscribers := t.subscribers.erase b }) := by
        intro a
        by_cases ha : a ∈ iter i.services
        · obtain ⟨t, ht, _⟩ := hsub a (hp.mem_iff.mp ha)
          rw [k4 a ha t ht, ht]
          rfl
        · rw [k3 a ha]
          cases ht : H.tasks a with
          | none => rfl
          | some t =>
            simp only [Option.map_some, Option.some.injEq]
            rw [List.erase_of_not_mem]
            rw [(h.subscribers a t ht).2 b]
            rintro ⟨i', hi', hne⟩
            rw [hi, Option.some.injEq] at hi'
            subst hi'
            exact ha (hp.mem_iff.mpr ((hmem a).mpr hne))
      refine ⟨{ H' with infos := upd H'.infos b none }, by simp only [step, destroyInfo, hi, k1, Option.map_some], fun a => ?_, fun b' => ?_, fun b' i' a hi' => ?_, fun a t' ht' => ?_, fun b' i' hi' => ?_⟩
      · simp only [htask, Option.map_map]
        exact h.tasks a
      · by_cases hx : b' = b
        · subst hx
          simp
        · simp only [upd_other hx, k2 b' hx, h.infos b']
      · by_cases hx : b' = b
        · subst hx
          simp at hi'
        · simp only [upd_other hx, k2 b' hx] at hi'
          exact h.entries b' i' a hi'
      · simp only [htask] at ht'
        obtain ⟨t, ht, rfl⟩ := Option.map_eq_some_iff.mp ht'
        obtain ⟨m1, m2⟩ := h.subscribers a t ht
        refine ⟨m1.erase b, fun b' => ?_⟩
        simp only
        rw [m1.mem_erase_iff]
        by_cases hx : b' = b
        · subst hx
          simp
        · simp only [hx, ne_eq, not_false_eq_true, true_and, upd_other hx, k2 b' hx, m2 b']
      · by_cases hx : b' = b
        · subst hx
          simp at hi'
        · simp only [upd_other hx, k2 b' hx] at hi'
          exact h.services b' i' hi'
    · simp at hs

theorem run_spec : ∀ {os : List (Op T E)} {H : Heap T E} {A A' : Abs T E} {rs : List (Out E)}, Rel H A → (∀ o ∈ os, o.Ok) → A.run os = some (rs, A') → ∃ H', run H os = some (rs, H') ∧ Rel H' A'
  | [], H, A, A', rs, h, _, hr => by
    simp only [Abs.run, Option.some.injEq, Prod.mk.injEq] at hr
    obtain ⟨rfl, rfl⟩ := hr
    exact ⟨H, rfl, h⟩
  | o :: os, H, A, A', rs, h, hok, hr => by
    simp only [Abs.run] at hr
    split at hr
    · simp at hr
    · rename_i r A1 hs
      obtain ⟨⟨rs', A2⟩, h1, h2⟩ := Option.map_eq_some_iff.mp hr
      simp only [Prod.mk.injEq] at h2
      obtain ⟨rfl, rfl⟩ := h2
      obtain ⟨H1, h3, h4⟩ := step_spec h (hok o List.mem_cons_self) hs
      obtain ⟨H2, h5, h6⟩ := run_spec h4 (fun o' ho' => hok o' (List.mem_cons_of_mem _ ho')) h1
      exact ⟨H2, by simp only [run, h3, h5, Option.map_some], h6⟩

/-- C85: in every history that only uses objects while they live, no assertion fails and no object that does not live is accessed, and all results are those of the specification: the entry of a pair is constructed by the first access
after both objects were created, and keeps the value that was written last; never the value of a task that lived at the same address before. -/
theorem C85_per_task_information {os : List (Op T E)} (hok : ∀ o ∈ os, o.Ok) {rs : List (Out E)} {A : Abs T E} (h : Abs.empty.run os = some (rs, A)) : ∃ H, run Heap.empty os = some (rs, H) := by
  obtain ⟨H, h1, _⟩ := run_spec Rel.empty hok h
  exact ⟨H, h1⟩

/-- C85: after every such history exactly the entries of tasks that live are stored: the entries of a task are destroyed with the task. And tasks and objects only know each other if there is an entry, so that no pointer to an object that
does not live is kept. -/
theorem C85_destroyed {os : List (Op T E)} (hok : ∀ o ∈ os, o.Ok) {rs : List (Out E)} {A : Abs T E} (h : Abs.empty.run os = some (rs, A)) {H : Heap T E} (hH : run Heap.empty os = some (rs, H)) :
    (∀ b i, H.infos b = some i → (∀ a, i.entries a = if (A.tasks a).isSome then A.vals b a else none) ∧ ∀ a ∈ i.services, (A.tasks a).isSome) ∧
    ∀ a t, H.tasks a = some t → ∀ b ∈ t.subscribers, (A.infos b).isSome := by
  obtain ⟨H', h1, h2⟩ := run_spec Rel.empty hok h
  rw [hH] at h1
  simp only [Option.some.injEq, Prod.mk.injEq, true_and] at h1
  subst h1
  refine ⟨fun b i hi => ⟨fun a => h2.entries b i a hi, fun a ha => ?_⟩, fun a t ht b hb => ?_⟩
  · by_contra hn
    have := ((h2.services b i hi).2 a).mp ha
    rw [h2.entries b i a hi, if_neg hn] at this
    exact this rfl
  · obtain ⟨i, hi, _⟩ := ((h2.subscribers a t ht).2 b).mp hb
    rw [← h2.infos b, hi]
    rfl

/-- a history in which an address is used for a second task, with two objects for information of which one is destroyed before its task -/
def exHistory : List (Op Nat Nat) :=
  [.newTask 0 10, .newInfo 7 (· + 1), .newInfo 8 (· * 2), .read 7 0, .write 7 0 99, .read 8 0, .read 7 0, .destroyInfo 8 List.reverse, .destroyTask 0 id, .newTask 0 20, .read 7 0, .newInfo 8 (· * 3), .read 8 0, .read 8 0]

example : (∀ o ∈ exHistory, o.Ok) ∧ (Abs.empty.run exHistory).map (·.1) =
    some [.done, .done, .done, .entry 11 true, .done, .entry 20 true, .entry 99 false, .done, .done, .done, .entry 21 true, .done, .entry 60 true, .entry 60 false] := by
  refine ⟨?_, by decide +kernel⟩
  intro o ho
  simp only [exHistory, List.mem_cons, List.not_mem_nil, or_false] at ho
  rcases ho with rfl | rfl | rfl | rfl | rfl | rfl | rfl | rfl | rfl | rfl | rfl | rfl | rfl | rfl <;> simp [Op.Ok]

end Verif.PerTask
