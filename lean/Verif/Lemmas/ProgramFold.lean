import Verif.Model.PrologProgram
import Verif.Lemmas.BuildFire

/-
Replacing a rule by several rules with new predicates: what "implements" means, and how implementations are composed.
-/
namespace Verif.PrologProgram
open Verif.Datalog Verif.BuildModel
variable {P V O : Type} [DecidableEq P] [DecidableEq V] [DecidableEq O]

/-- a set of atoms is closed under a rule -/
def Closed (Q : GAtom P O → Prop) (effect : SymAtom P V O) (conds : List (SymAtom P V O)) : Prop := ∀ σ : V → O, (∀ c ∈ conds, Q (c.inst σ)) → Q (effect.inst σ)

/-- as `Closed`, where the conditions need to agree on the variables of the effect only -/
def LClosed (Q : GAtom P O → Prop) (effect : SymAtom P V O) (conds : List (SymAtom P V O)) : Prop := ∀ σ : V → O, (∀ c ∈ conds, ∃ τ : V → O, (∀ v ∈ c.vars, v ∈ effect.vars → τ v = σ v) ∧ Q (c.inst τ)) → Q (effect.inst σ)

/-- the rules `rs` implement the rule with the given effect and conditions; they use new predicates with numbers in `R` -/
structure Impl (name : Nat → P) (R : Nat → Prop) (effect : SymAtom P V O) (conds : List (SymAtom P V O)) (rs : List (Datalog.Rule P V O)) : Prop where
  complete : ∀ Q : GAtom P O → Prop, (∀ x ∈ rs, Closed Q x.effect x.conditions) → Closed Q effect conds
  sound : ∀ Q : GAtom P O → Prop, Closed Q effect conds → ∃ Q' : GAtom P O → Prop, (∀ a, (∀ i, R i → a.pred ≠ name i) → (Q' a ↔ Q a)) ∧ ∀ x ∈ rs, Closed Q' x.effect x.conditions
  loose : ∀ Q : GAtom P O → Prop, LClosed Q effect conds → ∃ Q' : GAtom P O → Prop, (∀ a, (∀ i, R i → a.pred ≠ name i) → (Q' a ↔ Q a)) ∧ ∀ x ∈ rs, LClosed Q' x.effect x.conditions
  atoms : ∃ m : Nat → Nat, ∀ x ∈ rs, ∀ a ∈ x.effect :: x.conditions, (∃ i, R i ∧ a.pred = name i ∧ a.args.length = m i) ∨ a ∈ effect :: conds
  normal : ∀ x ∈ rs, x.Normal
  joined : (∀ c ∈ conds, ∀ v ∈ c.vars, v ∈ effect.vars) → ∀ x ∈ rs, x.Joined

theorem Closed.congr {Q Q' : GAtom P O → Prop} {effect : SymAtom P V O} {conds : List (SymAtom P V O)} (h : Closed Q effect conds) (hq : ∀ a ∈ effect :: conds, ∀ b : GAtom P O, b.pred = a.pred → (Q' b ↔ Q b)) : Closed Q' effect conds := by
  intro σ hc
  rw [hq effect (by simp) (effect.inst σ) rfl]
  exact h σ fun c hc' => (hq c (by simp [hc']) (c.inst σ) rfl).mp (hc c hc')

theorem LClosed.congr {Q Q' : GAtom P O → Prop} {effect : SymAtom P V O} {conds : List (SymAtom P V O)} (h : LClosed Q effect conds) (hq : ∀ a ∈ effect :: conds, ∀ b : GAtom P O, b.pred = a.pred → (Q' b ↔ Q b)) : LClosed Q' effect conds := by
  intro σ hc
  rw [hq effect (by simp) (effect.inst σ) rfl]
  refine h σ fun c hc' => ?_
  obtain ⟨τ, h1, h2⟩ := hc c hc'
  exact ⟨τ, h1, (hq c (by simp [hc']) (c.inst τ) rfl).mp h2⟩

theorem Impl.congr {name : Nat → P} {R R' : Nat → Prop} {effect : SymAtom P V O} {conds conds' : List (SymAtom P V O)} {rs : List (Datalog.Rule P V O)} (h : Impl name R effect conds rs) (hc : ∀ c, c ∈ conds ↔ c ∈ conds') (hR : ∀ i, R i → R' i) : Impl name R' effect conds' rs := by
  have hclosed : ∀ Q : GAtom P O → Prop, Closed Q effect conds ↔ Closed Q effect conds' := fun Q => ⟨fun h σ h' => h σ fun c hc' => h' c ((hc c).mp hc'), fun h σ h' => h σ fun c hc' => h' c ((hc c).mpr hc')⟩
  have hlclosed : ∀ Q : GAtom P O → Prop, LClosed Q effect conds' → LClosed Q effect conds := fun Q h σ h' => h σ fun c hc' => h' c ((hc c).mpr hc')
  refine ⟨fun Q hQ => (hclosed Q).mp (h.complete Q hQ), fun Q hQ => ?_, fun Q hQ => ?_, ?_, h.normal, fun hv => h.joined fun c hc' => hv c ((hc c).mp hc')⟩
  · obtain ⟨Q', h1, h2⟩ := h.sound Q ((hclosed Q).mpr hQ)
    exact ⟨Q', fun a ha => h1 a fun i hi => ha i (hR i hi), h2⟩
  · obtain ⟨Q', h1, h2⟩ := h.loose Q (hlclosed Q hQ)
    exact ⟨Q', fun a ha => h1 a fun i hi => ha i (hR i hi), h2⟩
  · obtain ⟨m, hm⟩ := h.atoms
    refine ⟨m, fun x hx a ha => ?_⟩
    rcases hm x hx a ha with ⟨i, h1, h2⟩ | h1
    · exact .inl ⟨i, hR i h1, h2⟩
    · refine .inr ?_
      rcases List.mem_cons.mp h1 with rfl | h1
      · simp
      · simp [(hc a).mp h1]

theorem Impl.single {name : Nat → P} (x : Datalog.Rule P V O) (hx : x.Normal) : Impl name (fun _ => False) x.effect x.conditions [x] := by
  refine ⟨fun Q hQ => hQ x (by simp), fun Q hQ => ⟨Q, fun _ _ => Iff.rfl, fun y hy => ?_⟩, fun Q hQ => ⟨Q, fun _ _ => Iff.rfl, fun y hy => ?_⟩, ⟨fun _ => 0, fun y hy a ha => ?_⟩, fun y hy => ?_, fun hv y hy => ?_⟩
  all_goals rw [List.mem_singleton] at hy; subst hy
  · exact hQ
  · exact hQ
  · exact .inr ha
  · exact hx
  · unfold Datalog.Rule.Joined
    have : ∀ c ∈ y.conditions, ∀ v ∈ c.vars, v ∈ y.effect.vars := hv
    clear hx hv
    generalize y.conditions = l at this
    induction l with
    | nil => exact .nil
    | cons c l ih => exact .cons (fun d _ v hv _ => this c (by simp) v hv) (ih fun d hd => this d (by simp [hd]))

/-- some conditions are replaced by a new atom, which has its own rule -/
theorem Impl.fold {name : Nat → P} (hinj : ∀ i j, name i = name j → i = j) {R1 R2 : Nat → Prop} {i0 : Nat} {effect E : SymAtom P V O} {conds conds' G H : List (SymAtom P V O)} {rs1 rs2 : List (Datalog.Rule P V O)}
    (hE : E.pred = name i0) (hconds : ∀ c, c ∈ conds ↔ c ∈ G ∨ c ∈ H) (hconds' : ∀ c, c ∈ conds' ↔ c = E ∨ c ∈ H) (hnew : ∀ a ∈ effect :: conds, ∀ i, (i = i0 ∨ R1 i ∨ R2 i) → a.pred ≠ name i)
    (hbound : ∀ v ∈ E.vars, ∃ c ∈ G, v ∈ c.vars) (hkeep : ∀ c ∈ G, ∀ v ∈ c.vars, (v ∈ effect.vars ∨ ∃ d ∈ H, v ∈ d.vars) → v ∈ E.vars)
    (h1 : Impl name R1 E G rs1) (h2 : Impl name R2 effect conds' rs2) (hdis : ∀ i, R1 i → ¬ R2 i) (hi1 : ¬ R1 i0) (hi2 : ¬ R2 i0) : Impl name (fun i => i = i0 ∨ R1 i ∨ R2 i) effect conds (rs1 ++ rs2) := by
  classical
  have hmem : ∀ c, c ∈ effect :: conds → (c = effect ∨ c ∈ G ∨ c ∈ H) := fun c hc => by
    rcases List.mem_cons.mp hc with h | h
    · exact .inl h
    · exact .inr ((hconds c).mp h)
  refine ⟨fun Q hQ σ hc => ?_, fun Q hQ => ?_, fun Q hQ => ?_, ?_, fun x hx => ?_, fun hv x hx => ?_⟩
  · have hc1 := h1.complete Q (fun x hx => hQ x (List.mem_append_left _ hx))
    have hc2 := h2.complete Q (fun x hx => hQ x (List.mem_append_right _ hx))
    refine hc2 σ fun c hc' => ?_
    rcases (hconds' c).mp hc' with rfl | hc'
    · exact hc1 σ fun d hd => hc d ((hconds d).mpr (.inl hd))
    · exact hc c ((hconds c).mpr (.inr hc'))
  · let Q0 : GAtom P O → Prop := fun a => if a.pred = name i0 then ∃ σ, a = E.inst σ ∧ ∀ c ∈ G, Q (c.inst σ) else Q a
    have hQ0 : ∀ a : GAtom P O, a.pred ≠ name i0 → (Q0 a ↔ Q a) := fun a ha => by simp only [Q0, if_neg ha]
    have hold : ∀ c ∈ effect :: conds, ∀ σ : V → O, Q0 (c.inst σ) ↔ Q (c.inst σ) := fun c hc σ => hQ0 _ (hnew c hc i0 (.inl rfl))
    have hG : ∀ c ∈ G, c ∈ effect :: conds := fun c hc => List.mem_cons_of_mem _ ((hconds c).mpr (.inl hc))
    have hH : ∀ c ∈ H, c ∈ effect :: conds := fun c hc => List.mem_cons_of_mem _ ((hconds c).mpr (.inr hc))
    have hcE : Closed Q0 E G := by
      intro σ hc
      simp only [Q0]
      rw [if_pos (show (E.inst σ).pred = name i0 from hE)]
      exact ⟨σ, rfl, fun c hc' => (hold c (hG c hc') σ).mp (hc c hc')⟩
    have hcr : Closed Q0 effect conds' := by
      intro σ hc
      rw [hold effect (by simp)]
      have hEσ := hc E ((hconds' E).mpr (.inl rfl))
      simp only [Q0] at hEσ
      rw [if_pos (show (E.inst σ).pred = name i0 from hE)] at hEσ
      obtain ⟨σG, hEq, hQG⟩ := hEσ
      let σ' : V → O := fun v => if ∃ c ∈ G, v ∈ c.vars then σG v else σ v
      have hsame : ∀ v, (v ∈ effect.vars ∨ ∃ d ∈ H, v ∈ d.vars) → σ v = σ' v := by
        intro v hv
        simp only [σ']
        split
        · rename_i h
          obtain ⟨c, hc', hvc⟩ := h
          exact inst_inj hEq v (hkeep c hc' v hvc hv)
        · rfl
      rw [inst_congr (fun v hv => hsame v (.inl hv))]
      refine hQ σ' fun c hc' => ?_
      rcases (hconds c).mp hc' with h | h
      · rw [inst_congr (τ := σG) fun v hv => by simp only [σ']; rw [if_pos ⟨c, h, hv⟩]]
        exact hQG c h
      · rw [inst_congr (τ := σ) fun v hv => (hsame v (.inr ⟨c, h, hv⟩)).symm]
        exact (hold c (hH c h) σ).mp (hc c ((hconds' c).mpr (.inr h)))
    obtain ⟨Q1, h3, h4⟩ := h1.sound Q0 hcE
    have hcr1 : Closed Q1 effect conds' := by
      refine hcr.congr fun a ha b hb => h3 b fun i hi => ?_
      rw [hb]
      rcases List.mem_cons.mp ha with rfl | ha
      · exact hnew a (by simp) i (.inr (.inl hi))
      · rcases (hconds' a).mp ha with rfl | ha
        · rw [hE]
          intro h
          exact hi1 (hinj _ _ h ▸ hi)
        · exact hnew a (hH a ha) i (.inr (.inl hi))
    obtain ⟨Q2, h5, h6⟩ := h2.sound Q1 hcr1
    refine ⟨Q2, fun a ha => ?_, fun x hx => ?_⟩
    · rw [h5 a (fun i hi => ha i (.inr (.inr hi))), h3 a (fun i hi => ha i (.inr (.inl hi)))]
      exact hQ0 a (ha i0 (.inl rfl))
    · rcases List.mem_append.mp hx with hx | hx
      · refine (h4 x hx).congr fun a ha b hb => h5 b fun i hi => ?_
        rw [hb]
        obtain ⟨m, hm⟩ := h1.atoms
        rcases hm x hx a ha with ⟨i', hi', h7, _⟩ | h7
        · rw [h7]
          intro h
          exact hdis i' hi' (hinj _ _ h ▸ hi)
        · rcases List.mem_cons.mp h7 with rfl | h7
          · rw [hE]
            intro h
            exact hi2 (hinj _ _ h ▸ hi)
          · exact hnew a (hG a h7) i (.inr (.inr hi))
      · exact h6 x hx
  · let Q0 : GAtom P O → Prop := fun a => if a.pred = name i0 then ∃ σ, a = E.inst σ ∧ ∀ c ∈ G, ∃ τ : V → O, (∀ v ∈ c.vars, v ∈ E.vars → τ v = σ v) ∧ Q (c.inst τ) else Q a
    have hQ0 : ∀ a : GAtom P O, a.pred ≠ name i0 → (Q0 a ↔ Q a) := fun a ha => by simp only [Q0, if_neg ha]
    have hold : ∀ c ∈ effect :: conds, ∀ σ : V → O, Q0 (c.inst σ) ↔ Q (c.inst σ) := fun c hc σ => hQ0 _ (hnew c hc i0 (.inl rfl))
    have hG : ∀ c ∈ G, c ∈ effect :: conds := fun c hc => List.mem_cons_of_mem _ ((hconds c).mpr (.inl hc))
    have hH : ∀ c ∈ H, c ∈ effect :: conds := fun c hc => List.mem_cons_of_mem _ ((hconds c).mpr (.inr hc))
    have hcE : LClosed Q0 E G := by
      intro σ hc
      simp only [Q0]
      rw [if_pos (show (E.inst σ).pred = name i0 from hE)]
      refine ⟨σ, rfl, fun c hc' => ?_⟩
      obtain ⟨τ, h3, h4⟩ := hc c hc'
      exact ⟨τ, h3, (hold c (hG c hc') τ).mp h4⟩
    have hcr : LClosed Q0 effect conds' := by
      intro σ hc
      rw [hold effect (by simp)]
      obtain ⟨τE, hτE, hEσ⟩ := hc E ((hconds' E).mpr (.inl rfl))
      simp only [Q0] at hEσ
      rw [if_pos (show (E.inst τE).pred = name i0 from hE)] at hEσ
      obtain ⟨σG, hEq, hQG⟩ := hEσ
      refine hQ σ fun c hc' => ?_
      rcases (hconds c).mp hc' with h | h
      · obtain ⟨τ, h3, h4⟩ := hQG c h
        refine ⟨τ, fun v hv hve => ?_, h4⟩
        have hvE := hkeep c h v hv (.inl hve)
        rw [h3 v hv hvE, ← inst_inj hEq v hvE, hτE v hvE hve]
      · obtain ⟨τ, h3, h4⟩ := hc c ((hconds' c).mpr (.inr h))
        exact ⟨τ, h3, (hold c (hH c h) τ).mp h4⟩
    obtain ⟨Q1, h3, h4⟩ := h1.loose Q0 hcE
    have hcr1 : LClosed Q1 effect conds' := by
      refine hcr.congr fun a ha b hb => h3 b fun i hi => ?_
      rw [hb]
      rcases List.mem_cons.mp ha with rfl | ha
      · exact hnew a (by simp) i (.inr (.inl hi))
      · rcases (hconds' a).mp ha with rfl | ha
        · rw [hE]
          intro h
          exact hi1 (hinj _ _ h ▸ hi)
        · exact hnew a (hH a ha) i (.inr (.inl hi))
    obtain ⟨Q2, h5, h6⟩ := h2.loose Q1 hcr1
    refine ⟨Q2, fun a ha => ?_, fun x hx => ?_⟩
    · rw [h5 a (fun i hi => ha i (.inr (.inr hi))), h3 a (fun i hi => ha i (.inr (.inl hi)))]
      exact hQ0 a (ha i0 (.inl rfl))
    · rcases List.mem_append.mp hx with hx | hx
      · refine (h4 x hx).congr fun a ha b hb => h5 b fun i hi => ?_
        rw [hb]
        obtain ⟨m, hm⟩ := h1.atoms
        rcases hm x hx a ha with ⟨i', hi', h7, _⟩ | h7
        · rw [h7]
          intro h
          exact hdis i' hi' (hinj _ _ h ▸ hi)
        · rcases List.mem_cons.mp h7 with rfl | h7
          · rw [hE]
            intro h
            exact hi2 (hinj _ _ h ▸ hi)
          · exact hnew a (hG a h7) i (.inr (.inr hi))
      · exact h6 x hx
  · obtain ⟨m1, hm1⟩ := h1.atoms
    obtain ⟨m2, hm2⟩ := h2.atoms
    refine ⟨fun i => if R1 i then m1 i else if R2 i then m2 i else E.args.length, fun x hx a ha => ?_⟩
    have hEm : ∃ i, (i = i0 ∨ R1 i ∨ R2 i) ∧ E.pred = name i ∧ E.args.length = if R1 i then m1 i else if R2 i then m2 i else E.args.length := ⟨i0, .inl rfl, hE, by rw [if_neg hi1, if_neg hi2]⟩
    rcases List.mem_append.mp hx with hx | hx
    · rcases hm1 x hx a ha with ⟨i, hi, h3, h4⟩ | h3
      · exact .inl ⟨i, .inr (.inl hi), h3, by beta_reduce; rw [if_pos hi]; exact h4⟩
      · rcases List.mem_cons.mp h3 with rfl | h3
        · exact .inl hEm
        · exact .inr (List.mem_cons_of_mem _ ((hconds a).mpr (.inl h3)))
    · rcases hm2 x hx a ha with ⟨i, hi, h3, h4⟩ | h3
      · exact .inl ⟨i, .inr (.inr hi), h3, by beta_reduce; rw [if_neg (fun h => hdis i h hi), if_pos hi]; exact h4⟩
      · rcases List.mem_cons.mp h3 with rfl | h3
        · exact .inr (by simp)
        · rcases (hconds' a).mp h3 with rfl | h3
          · exact .inl hEm
          · exact .inr (List.mem_cons_of_mem _ ((hconds a).mpr (.inr h3)))
  · rcases List.mem_append.mp hx with hx | hx
    · exact h1.normal x hx
    · exact h2.normal x hx
  · rcases List.mem_append.mp hx with hx | hx
    · exact h1.joined (fun c hc v hvc => hkeep c hc v hvc (.inl (hv c ((hconds c).mpr (.inl hc)) v hvc))) x hx
    · refine h2.joined (fun c hc v hvc => ?_) x hx
      rcases (hconds' c).mp hc with rfl | hc
      · obtain ⟨d, hd, hvd⟩ := hbound v hvc
        exact hv d ((hconds d).mpr (.inl hd)) v hvd
      · exact hv c ((hconds c).mpr (.inr hc)) v hvc

end Verif.PrologProgram
