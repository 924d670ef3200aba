import Verif.Mods.Tptp
/-!
# The TPTP output: derivations that are accepted are sound
-/

namespace Verif.Tptp
open Verif.AST
open Verif.Gs3 (Rule Tree)
open Verif.Rocq (put allRest exRest holds_put holds_all_rest holds_ex_rest)

universe u

/-! ## Soundness of the checker -/

/-- The sequent holds in all interpretations of the axioms. -/
def Seq.Valid (As : List Form) (s : Seq) : Prop :=
  ∀ (D : Type u) (I : Interp D) (μ ρ : Nat → D), (∀ a ∈ As, Form.holds I μ ρ a) →
    (∀ f ∈ s.left, Form.holds I μ ρ f) → ∃ g ∈ s.right, Form.holds I μ ρ g

theorem same_iff {l m : List Form} : same l m = true ↔ ∀ f, f ∈ l ↔ f ∈ m := by
  simp only [same, Bool.and_eq_true, List.all_eq_true, decide_eq_true_eq]
  exact ⟨fun h f => ⟨h.1 f, h.2 f⟩, fun h => ⟨fun f => (h f).1, fun f => (h f).2⟩⟩

theorem premise_sound {As : List Form} {s : Step} {i : Nat} {ps : List Form} {p : Seq} (h : premise s i ps p = true)
    (hv : Seq.Valid.{u} As p) {D : Type u} {I : Interp D} {μ ρ : Nat → D} (hA : ∀ a ∈ As, Form.holds I μ ρ a)
    (hl : ∀ f ∈ s.left, Form.holds I μ ρ f) (hp : ∀ f ∈ ps, Form.holds I μ ρ f) :
    ∃ g ∈ s.right, Form.holds I μ ρ g := by
  simp only [premise, Bool.and_eq_true, Bool.or_eq_true, same_iff] at h
  obtain ⟨g, hg, hh⟩ := hv D I μ ρ hA (fun f hf => by
    rcases h.2 with h2 | h2
    · rcases List.mem_append.1 ((h2 f).1 hf) with h3 | h3
      · exact hl f h3
      · exact hp f h3
    · rcases List.mem_append.1 ((h2 f).1 hf) with h3 | h3
      · exact hl f (List.mem_of_mem_eraseIdx h3)
      · exact hp f h3)
  exact ⟨g, (h.1 g).1 hg, hh⟩

theorem premises_sound {As : List Form} {s : Step} {i : Nat} {D : Type u} {I : Interp D} {μ ρ : Nat → D}
    (hA : ∀ a ∈ As, Form.holds I μ ρ a) (hl : ∀ f ∈ s.left, Form.holds I μ ρ f) :
    ∀ {pss : List (List Form)} {ps : List Seq}, premises s i pss ps = true → (∀ p ∈ ps, Seq.Valid.{u} As p) →
      (∃ parts ∈ pss, ∀ f ∈ parts, Form.holds I μ ρ f) → ∃ g ∈ s.right, Form.holds I μ ρ g
  | [], [], _, _, ⟨_, h, _⟩ => by cases h
  | [], _ :: _, h, _, _ => by cases h
  | _ :: _, [], h, _, _ => by cases h
  | a :: pss, p :: ps, h, hv, ⟨parts, hm, hp⟩ => by
    simp only [premises, Bool.and_eq_true] at h
    rcases List.mem_cons.1 hm with rfl | hm
    · exact premise_sound h.1 (hv p (by simp)) hA hl hp
    · exact premises_sound hA hl h.2 (fun q hq => hv q (by simp [hq])) ⟨parts, hm, hp⟩

theorem parts_sound {D : Type u} {I : Interp D} {μ ρ : Nat → D} {inf : Inf} {f : Form} {pss : List (List Form)}
    (h : parts inf f = some pss) (hf : Form.holds I μ ρ f) : ∃ ps ∈ pss, ∀ g ∈ ps, Form.holds I μ ρ g := by
  unfold parts at h
  split at h <;> cases h
  · refine ⟨_, List.mem_singleton.2 rfl, ?_⟩
    simpa using hf
  · refine ⟨_, List.mem_singleton.2 rfl, ?_⟩
    simpa using hf
  · refine ⟨_, List.mem_singleton.2 rfl, ?_⟩
    simp only [List.forall_mem_map, Form.holds_neg]
    simpa using hf
  · refine ⟨_, List.mem_singleton.2 rfl, ?_⟩
    simpa using hf
  · rename_i fs
    simp only [Form.holds_neg, Form.holds_and, Classical.not_forall] at hf
    obtain ⟨g, hg, hn⟩ := hf
    exact ⟨[.neg g], List.mem_map.2 ⟨g, hg, rfl⟩, by simpa using hn⟩
  · rename_i fs
    simp only [Form.holds_or] at hf
    obtain ⟨g, hg, hn⟩ := hf
    exact ⟨[g], List.mem_map.2 ⟨g, hg, rfl⟩, by simpa using hn⟩
  · rename_i f g
    simp only [Form.holds_imp] at hf
    by_cases h : Form.holds I μ ρ f
    · exact ⟨[g], by simp, by simpa using hf h⟩
    · exact ⟨[.neg f], by simp, by simpa using h⟩
  · refine ⟨_, List.mem_singleton.2 rfl, ?_⟩
    simp only [Form.holds_equ] at hf
    simp only [List.mem_cons, List.not_mem_nil, or_false, forall_eq_or_imp, forall_eq, Form.holds_imp]
    exact ⟨hf.1, hf.2⟩
  · rename_i f g
    simp only [Form.holds_neg, Form.holds_equ] at hf
    by_cases h : Form.holds I μ ρ f → Form.holds I μ ρ g
    · refine ⟨[.neg (.imp g f)], by simp, ?_⟩
      simp only [List.mem_cons, List.not_mem_nil, or_false, forall_eq, Form.holds_neg, Form.holds_imp]
      exact fun h' => hf ⟨h, h'⟩
    · refine ⟨[.neg (.imp f g)], by simp, ?_⟩
      simpa using h

theorem funs_exRest (vs : List TVar) (f : Form) : (exRest vs f).funs = f.funs := by
  cases vs <;> simp [exRest, Form.funs]

/-- A premise for the instance with a new constant. -/
theorem fresh_sound {As : List Form} {s : Step} {i : Nat} {c : Term} {f g : Form} {ps : List Seq}
    (hf : s.left[i]? = some f) (hfr : fresh As s c = true) (hps : premises s i [[g]] ps = true)
    (hv : ∀ p ∈ ps, Seq.Valid.{u} As p) {D : Type u} {I : Interp D} {μ ρ : Nat → D}
    (hA : ∀ a ∈ As, Form.holds I μ ρ a) (hl : ∀ f ∈ s.left, Form.holds I μ ρ f)
    (hg : ∀ p, c = .fn p [] [] → p ∉ f.funs →
      ∃ d, Form.holds { I with fn := fun q tys ds => if q = p then d else I.fn q tys ds } μ ρ g) :
    ∃ g ∈ s.right, Form.holds I μ ρ g := by
  unfold fresh at hfr
  split at hfr
  · rename_i p
    simp only [Bool.and_eq_true, decide_eq_true_eq] at hfr
    have hfm := List.mem_of_getElem? hf
    obtain ⟨d, hd⟩ := hg p rfl (fun hp => hfr.1.2 (Form.mem_funsL.2 ⟨f, hfm, hp⟩))
    have hJ : ∀ k, p ∉ Form.funs k → (Form.holds { I with fn := fun q tys ds => if q = p then d else I.fn q tys ds } μ ρ k ↔
        Form.holds I μ ρ k) := fun k hk =>
      Form.holds_congr (fun _ _ => rfl) (fun _ _ => rfl) (fun q hq => by
        funext tys ds; exact if_neg (fun e : q = p => hk (e ▸ hq))) rfl
    obtain ⟨r, hr, hh⟩ := premises_sound (As := As) (s := s) (i := i) (μ := μ) (ρ := ρ)
      (I := { I with fn := fun q tys ds => if q = p then d else I.fn q tys ds })
      (fun a ha => (hJ a (fun hp => hfr.1.1 (Form.mem_funsL.2 ⟨a, ha, hp⟩))).2 (hA a ha))
      (fun a ha => (hJ a (fun hp => hfr.1.2 (Form.mem_funsL.2 ⟨a, ha, hp⟩))).2 (hl a ha))
      hps hv ⟨[g], by simp, by simpa using hd⟩
    exact ⟨r, hr, (hJ r (fun hp => hfr.2 (Form.mem_funsL.2 ⟨r, hr, hp⟩))).1 hh⟩
  · cases hfr

theorem inst_gamma {D : Type u} {I : Interp D} {μ ρ : Nat → D} {inf : Inf} {i : Nat} {t : Term} {f g : Form}
    (hi : inf = .leftForall i t ∨ inf = .leftNotEx i t) (h : inst inf f = some g) (ht : t.vars = [])
    (hf : Form.holds I μ ρ f) : Form.holds I μ ρ g := by
  unfold inst at h
  rcases hi with rfl | rfl
  · split at h
    · rename_i v vs b he
      cases he; cases h
      rw [holds_put ht]
      exact holds_all_rest.1 hf _
    all_goals (first | (rename_i he; cases he; done) | (cases h; done))
  · split at h
    · rename_i he; cases he
    · rename_i v vs b he
      cases he; cases h
      rw [Form.holds_neg, holds_put ht]
      simp only [Form.holds_neg, holds_ex_rest, not_exists] at hf
      exact hf _
    all_goals (first | (rename_i he; cases he; done) | (cases h; done))

theorem inst_delta {D : Type u} {I : Interp D} {μ ρ : Nat → D} {inf : Inf} {i p : Nat} {f g : Form}
    (hi : inf = .leftExists i (.fn p [] []) ∨ inf = .leftNotAll i (.fn p [] [])) (h : inst inf f = some g)
    (hf : Form.holds I μ ρ f) (hp : p ∉ f.funs) :
    ∃ d, Form.holds { I with fn := fun q tys ds => if q = p then d else I.fn q tys ds } μ ρ g := by
  unfold inst at h
  rcases hi with rfl | rfl
  · split at h
    · rename_i he; cases he
    · rename_i he; cases he
    · rename_i v vs b he
      cases he; cases h
      rw [holds_ex_rest] at hf
      obtain ⟨d, hd⟩ := hf
      refine ⟨d, ?_⟩
      rw [holds_put (by simp [Term.vars, Term.varsL])]
      simp only [Term.eval, if_true]
      have e : Form.holds { I with fn := fun q tys ds => if q = p then d else I.fn q tys ds } μ (upd ρ v.index d) (exRest vs b) ↔
          Form.holds I μ (upd ρ v.index d) (exRest vs b) :=
        Form.holds_congr (fun _ _ => rfl) (fun _ _ => rfl) (fun q hq => by
          rw [funs_exRest] at hq
          funext tys ds
          exact if_neg (fun e : q = p => hp (e ▸ hq))) rfl
      exact e.2 hd
    · rename_i he; cases he
    · cases h
  · split at h
    · rename_i he; cases he
    · rename_i he; cases he
    · rename_i he; cases he
    · rename_i v vs b he
      cases he; cases h
      simp only [Form.holds_neg, holds_all_rest, Classical.not_forall] at hf
      obtain ⟨d, hd⟩ := hf
      refine ⟨d, ?_⟩
      rw [Form.holds_neg, holds_put (by simp [Term.vars, Term.varsL])]
      simp only [Term.eval, if_true]
      have e : Form.holds { I with fn := fun q tys ds => if q = p then d else I.fn q tys ds } μ (upd ρ v.index d) (allRest vs b) ↔
          Form.holds I μ (upd ρ v.index d) (allRest vs b) :=
        Form.holds_congr (fun _ _ => rfl) (fun _ _ => rfl) (fun q hq => by
          rw [Rocq.funs_allRest] at hq
          funext tys ds
          exact if_neg (fun e : q = p => hp (e ▸ hq))) rfl
      exact fun hh => hd (e.1 hh)
    · cases h

theorem stepOk_sound {As : List Form} {s : Step} {ps : List Seq} (h : stepOk As s ps = true)
    (hv : ∀ p ∈ ps, Seq.Valid.{u} As p) : Seq.Valid.{u} As s.seq := by
  intro D I μ ρ hA hl
  simp only [Step.seq] at hl ⊢
  unfold stepOk at h
  split at h
  · rename_i i _
    simp only [Bool.and_eq_true] at h
    have h2 := h.2
    split at h2
    · rename_i f hf
      exact absurd (hl f (List.mem_of_getElem? hf)) (by simpa using hl _ (of_decide_eq_true h2))
    · cases h2
  · simp only [Bool.and_eq_true, List.any_eq_true, decide_eq_true_eq] at h
    obtain ⟨_, f, hf, hn⟩ := h
    exact absurd (hl f hf) (by simpa using hl _ hn)
  · split at h
    · rename_i p
      simp only [Bool.and_eq_true, decide_eq_true_eq, same_iff] at h
      obtain ⟨g, hg, hh⟩ := hv p (by simp) D I μ ρ hA
        (fun f hf => hl f (List.mem_of_mem_eraseIdx ((h.1.2 f).1 hf)))
      exact ⟨g, (h.2 g).1 hg, hh⟩
    · cases h
  · simp only [Bool.and_eq_true] at h
    have h2 := h.2
    split at h2
    · rename_i f hf
      exact ⟨f, of_decide_eq_true h2, hl f (List.mem_of_getElem? hf)⟩
    · cases h2
  · split at h
    · rename_i p f hr
      simp only [Bool.and_eq_true, Bool.or_eq_true, same_iff] at h
      have hm := List.mem_of_getElem? hr
      by_cases hf : Form.holds I μ ρ f
      · obtain ⟨g, hg, hh⟩ := hv p (by simp) D I μ ρ hA (fun k hk => by
          rcases List.mem_append.1 ((h.1 k).1 hk) with h1 | h1
          · exact hl k h1
          · rw [List.mem_singleton.1 h1]; exact hf)
        rcases h.2 with h2 | h2
        · exact ⟨g, (h2 g).1 hg, hh⟩
        · exact ⟨g, List.mem_of_mem_eraseIdx ((h2 g).1 hg), hh⟩
      · exact ⟨_, hm, by simpa using hf⟩
    · cases h
  · split at h
    · rename_i i he _ p q
      split at h
      · rename_i f hf
        simp only [Bool.and_eq_true, List.all_eq_true, decide_eq_true_eq] at h
        obtain ⟨⟨⟨h1, h2⟩, h3⟩, h4⟩ := h
        obtain ⟨g, hg, hh⟩ := hv p (by simp) D I μ ρ hA (fun k hk => hl k (h1 k hk))
        obtain ⟨j, hj, rfl⟩ := List.getElem_of_mem hg
        by_cases hij : j = i
        · subst hij
          have : p.right[j] = f := by
            rw [List.getElem?_eq_getElem hj] at hf
            exact Option.some.inj hf
          rw [this] at hh
          obtain ⟨g', hg', hh'⟩ := hv q (by simp) D I μ ρ hA (fun k hk => by
            rcases h3 k hk with rfl | h3
            · exact hh
            · exact hl k h3)
          exact ⟨g', h4 g' hg', hh'⟩
        · refine ⟨_, h2 _ ?_, hh⟩
          rw [List.mem_eraseIdx_iff_getElem]
          exact ⟨j, hj, hij, rfl⟩
      · cases h
    · cases h
  · rename_i i t he
    split at h
    · rename_i f hf
      split at h
      · rename_i g hg
        simp only [Bool.and_eq_true, List.isEmpty_iff] at h
        have hm := hl f (List.mem_of_getElem? hf)
        refine premises_sound hA hl h.2 hv ⟨[g], by simp, ?_⟩
        simp only [List.mem_singleton, forall_eq]
        exact inst_gamma (.inl he) hg h.1 hm
      · cases h
    · cases h
  · rename_i i t he
    split at h
    · rename_i f hf
      split at h
      · rename_i g hg
        simp only [Bool.and_eq_true, List.isEmpty_iff] at h
        have hm := hl f (List.mem_of_getElem? hf)
        refine premises_sound hA hl h.2 hv ⟨[g], by simp, ?_⟩
        simp only [List.mem_singleton, forall_eq]
        exact inst_gamma (.inr he) hg h.1 hm
      · cases h
    · cases h
  · rename_i i t he
    split at h
    · rename_i f hf
      split at h
      · rename_i g hg
        simp only [Bool.and_eq_true, List.isEmpty_iff] at h
        have hm := hl f (List.mem_of_getElem? hf)
        refine fresh_sound hf h.1 h.2 hv hA hl ?_
        rintro p rfl hp
        exact inst_delta (.inl he) hg hm hp
      · cases h
    · cases h
  · rename_i i t he
    split at h
    · rename_i f hf
      split at h
      · rename_i g hg
        simp only [Bool.and_eq_true, List.isEmpty_iff] at h
        have hm := hl f (List.mem_of_getElem? hf)
        refine fresh_sound hf h.1 h.2 hv hA hl ?_
        rintro p rfl hp
        exact inst_delta (.inr he) hg hm hp
      · cases h
    · cases h
  · split at h
    · rename_i f hf
      split at h
      · rename_i pss hp
        exact premises_sound hA hl h hv (parts_sound hp (hl f (List.mem_of_getElem? hf)))
      · cases h
    · cases h

theorem find_name {done : List Step} {n : Name} {s : Step} (h : done.find? (fun s => decide (s.name = n)) = some s) :
    s ∈ done ∧ s.name = n :=
  ⟨List.mem_of_find?_eq_some h, by simpa using List.find?_some h⟩

theorem seqOf_valid {As : List Form} {done : List Step} (hd : ∀ s ∈ done, Seq.Valid.{u} As s.seq) {n : Name} {p : Seq}
    (h : seqOf As done n = some p) : Seq.Valid.{u} As p := by
  have key : (done.find? fun s => decide (s.name = n)).map Step.seq = some p → Seq.Valid.{u} As p := by
    intro h
    obtain ⟨s, hs, rfl⟩ := Option.map_eq_some_iff.1 h
    exact hd s (find_name hs).1
  cases n with
  | ax i =>
    simp only [seqOf, Option.map_eq_some_iff] at h
    obtain ⟨a, ha, rfl⟩ := h
    intro D I μ ρ hA _
    exact ⟨a, by simp, hA a (List.mem_of_getElem? ha)⟩
  | f n => exact key h
  | ext n k => exact key h
  | extc n k => exact key h
  | ac i => exact key h

theorem mapM_mem {α β : Type} {g : α → Option β} : ∀ {l : List α} {r : List β}, l.mapM g = some r →
    ∀ b ∈ r, ∃ a ∈ l, g a = some b
  | [], r, h, b, hb => by
    simp only [List.mapM_nil, Option.pure_def, Option.some.injEq] at h
    subst h
    cases hb
  | a :: l, r, h, b, hb => by
    simp only [List.mapM_cons, Option.pure_def, Option.bind_eq_bind, Option.bind_eq_some_iff, Option.some.injEq] at h
    obtain ⟨b', h1, r', h2, rfl⟩ := h
    rcases List.mem_cons.1 hb with rfl | hb
    · exact ⟨a, by simp, h1⟩
    · obtain ⟨a', ha', h3⟩ := mapM_mem h2 b hb
      exact ⟨a', by simp [ha'], h3⟩

/-- Every step of a derivation that the checker accepts holds in all interpretations of the axioms. -/
theorem check_sound {As : List Form} : ∀ {ls : List Line} {done : List Step}, check As done ls = true →
    (∀ s ∈ done, Seq.Valid.{u} As s.seq) → ∀ s, Line.step s ∈ ls → Seq.Valid.{u} As s.seq
  | [], _, _, _, s, h => by cases h
  | .junk t :: ls, done, h, _, _, _ => by cases h
  | .step s' :: ls, done, h, hd, s, hs => by
    simp only [check, Bool.and_eq_true] at h
    have hs' : Seq.Valid.{u} As s'.seq := by
      have h2 := h.1.2
      split at h2
      · rename_i ps hps
        refine stepOk_sound h2 (fun p hp => ?_)
        obtain ⟨n, _, hn⟩ := mapM_mem hps p hp
        exact seqOf_valid hd hn
      · cases h2
    rcases List.mem_cons.1 hs with he | hs
    · cases he; exact hs'
    · refine check_sound h.2 (fun x hx => ?_) s hs
      rcases List.mem_append.1 hx with hx | hx
      · exact hd x hx
      · rw [List.mem_singleton.1 hx]; exact hs'

/-- **C82 (soundness of the format).** A derivation that the checker accepts shows that the conjecture follows
from the axioms. -/
theorem C82_accepted_holds {As : List Form} {c : Form} {ls : List Line} (h : accepts As c ls = true)
    (D : Type u) (I : Interp D) (μ ρ : Nat → D) (hA : ∀ a ∈ As, Form.holds I μ ρ a) : Form.holds I μ ρ c := by
  simp only [accepts, Bool.and_eq_true, List.any_eq_true] at h
  obtain ⟨hc, l, hl, h2⟩ := h
  split at h2
  · rename_i s
    simp only [Bool.and_eq_true, decide_eq_true_eq] at h2
    obtain ⟨g, hg, hh⟩ := check_sound hc (by simp) s hl D I μ ρ hA (by simp [Step.seq, h2.1])
    simp only [Step.seq, h2.2, List.mem_singleton] at hg
    exact hg ▸ hh
  · cases h2

end Verif.Tptp
