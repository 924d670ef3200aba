import Verif.Search.MainProofGround
/-!
# C93: the proof with Skolem constants, made into a sequent proof

For formulas whose quantifiers all assert the existence of something (`C93_delta_partial`), each of them about a variable that occurs, the GS3 module
makes a refutation of the formula from the proof.
-/

namespace Verif.Search.Main
open Verif.AST Verif.Search Verif.Unif
open Verif.Gs3 (PS Rule closes alphaParts betaParts quantParts allVars allVarsL mem_allVarsL)

variable {ar : Nat → Nat} {B : Nat}

/-! ### Specification -/

mutual
/-- Each quantified variable occurs in the formula it is quantified in. -/
def Used : Form → Prop
  | .pred _ _ _ => True
  | .top => True
  | .bot => True
  | .neg f => Used f
  | .and fs => UsedL fs
  | .or fs => UsedL fs
  | .imp f g => Used f ∧ Used g
  | .equ f g => Used f ∧ Used g
  | .all vs f => (∀ v ∈ vs, v.index ∈ allVars f) ∧ Used f
  | .ex vs f => (∀ v ∈ vs, v.index ∈ allVars f) ∧ Used f
def UsedL : List Form → Prop
  | [] => True
  | f :: fs => Used f ∧ UsedL fs
end

theorem UsedL_iff {l : List Form} : UsedL l ↔ ∀ f ∈ l, Used f := by
  induction l with
  | nil => simp [UsedL]
  | cons f l ih => simp [UsedL, ih]

/-! ### Polarity -/

mutual
/-- No universal quantifier at this polarity. -/
def NoAll : Bool → Form → Prop
  | _, .pred _ _ _ => True
  | _, .top => True
  | _, .bot => True
  | pol, .neg f => NoAll (!pol) f
  | pol, .and fs => NoAllL pol fs
  | pol, .or fs => NoAllL pol fs
  | pol, .imp f g => NoAll (!pol) f ∧ NoAll pol g
  | _, .equ f g => NoAll true f ∧ NoAll false f ∧ NoAll true g ∧ NoAll false g
  | pol, .all _ f => pol = false ∧ NoAll pol f
  | pol, .ex _ f => pol = true ∧ NoAll pol f
def NoAllL : Bool → List Form → Prop
  | _, [] => True
  | pol, f :: fs => NoAll pol f ∧ NoAllL pol fs
end

theorem NoAllL_iff {pol : Bool} {l : List Form} : NoAllL pol l ↔ ∀ f ∈ l, NoAll pol f := by
  induction l with
  | nil => simp [NoAllL]
  | cons f l ih => simp [NoAllL, ih]

mutual
theorem Exist.noAll : ∀ {pol : Bool} {f : Form}, Exist ar B pol f → NoAll pol f
  | _, .pred _ _ _, _ => by simp [NoAll]
  | _, .top, _ => by simp [NoAll]
  | _, .bot, _ => by simp [NoAll]
  | _, .neg f, h => by simp only [Exist, NoAll] at *; exact Exist.noAll h
  | _, .and fs, h => by simp only [Exist, NoAll] at *; exact ExistL.noAll h.2.2
  | _, .or fs, h => by simp only [Exist, NoAll] at *; exact ExistL.noAll h.2.2
  | _, .imp f g, h => by simp only [Exist, NoAll] at *; exact ⟨Exist.noAll h.1, Exist.noAll h.2⟩
  | _, .equ f g, h => by simp only [Exist, NoAll] at *; exact ⟨Exist.noAll h.1, Exist.noAll h.2.1, Exist.noAll h.2.2.1, Exist.noAll h.2.2.2⟩
  | _, .all _ f, h => by simp only [Exist, NoAll] at *; exact ⟨h.1, Exist.noAll h.2⟩
  | _, .ex _ f, h => by simp only [Exist, NoAll] at *; exact ⟨h.1, Exist.noAll h.2⟩
theorem ExistL.noAll : ∀ {pol : Bool} {l : List Form}, ExistL ar B pol l → NoAllL pol l
  | _, [], _ => by simp [NoAllL]
  | _, f :: l, h => by simp only [ExistL, NoAllL] at *; exact ⟨Exist.noAll h.1, ExistL.noAll h.2⟩
end

/-! ### Replacing a variable -/

theorem replT_vars {x i : Nat} {t u : Term} (hx : x ∉ u.funs) (hi : i ≠ x) (h : i ∈ u.vars) : i ∈ (replT (.var x) t u).1.vars := by
  induction u using Term.ind with
  | var j =>
    simp only [Term.vars, List.mem_singleton] at h
    subst h
    rw [replT_var_fst, if_neg (Ne.symm hi)]
    simp [Term.vars]
  | mv j => simp [Term.vars] at h
  | fn q tys args ih =>
    simp only [Term.funs, List.mem_cons, not_or, Term.mem_funsL, not_exists, not_and] at hx
    simp only [Term.vars, Term.mem_varsL] at h
    obtain ⟨a, ha, hav⟩ := h
    rw [replT_fn_fst, if_neg hx.1]
    simp only [Term.vars, Term.mem_varsL, List.mem_map]
    exact ⟨_, ⟨a, ha, rfl⟩, ih a ha (hx.2 a ha) hav⟩

theorem replace_vars {x i : Nat} {t : Term} {f : Form} (hx : x ∉ f.funs) (hi : i ≠ x) (h : i ∈ allVars f) :
    i ∈ allVars (f.replaceTermByTerm (.var x) t).1 := by
  induction f using Form.ind with
  | pred q tys args =>
    simp only [Form.funs, Term.mem_funsL, not_exists, not_and] at hx
    simp only [allVars, Term.mem_varsL] at h
    obtain ⟨a, ha, hav⟩ := h
    simp only [Form.replaceTermByTerm, allVars, replTL_fst, Term.mem_varsL, List.mem_map]
    exact ⟨_, ⟨a, ha, rfl⟩, replT_vars (hx a ha) hi hav⟩
  | top => simp [allVars] at h
  | bot => simp [allVars] at h
  | neg f ih => exact ih hx h
  | and fs ih =>
    simp only [Form.funs, Form.mem_funsL, not_exists, not_and] at hx
    simp only [allVars, mem_allVarsL] at h
    obtain ⟨a, ha, hav⟩ := h
    simp only [Form.replaceTermByTerm, allVars, Form.replaceTermByTermL_fst, mem_allVarsL, List.mem_map]
    exact ⟨_, ⟨a, ha, rfl⟩, ih a ha (hx a ha) hav⟩
  | or fs ih =>
    simp only [Form.funs, Form.mem_funsL, not_exists, not_and] at hx
    simp only [allVars, mem_allVarsL] at h
    obtain ⟨a, ha, hav⟩ := h
    simp only [Form.replaceTermByTerm, allVars, Form.replaceTermByTermL_fst, mem_allVarsL, List.mem_map]
    exact ⟨_, ⟨a, ha, rfl⟩, ih a ha (hx a ha) hav⟩
  | imp f g ihf ihg =>
    simp only [Form.funs, List.mem_append, not_or] at hx
    simp only [allVars, List.mem_append] at h
    simp only [Form.replaceTermByTerm, allVars, List.mem_append]
    exact h.imp (ihf hx.1) (ihg hx.2)
  | equ f g ihf ihg =>
    simp only [Form.funs, List.mem_append, not_or] at hx
    simp only [allVars, List.mem_append] at h
    simp only [Form.replaceTermByTerm, allVars, List.mem_append]
    exact h.imp (ihf hx.1) (ihg hx.2)
  | all vs f ih => exact ih hx h
  | ex vs f ih => exact ih hx h

theorem Used.replace {x : Nat} {t : Term} {f : Form} (hx : x ∉ f.funs) (hb : x ∉ f.binders) (h : Used f) :
    Used (f.replaceTermByTerm (.var x) t).1 := by
  induction f using Form.ind with
  | pred q tys args => simp [Form.replaceTermByTerm, Used]
  | top => simp [Form.replaceTermByTerm, Used]
  | bot => simp [Form.replaceTermByTerm, Used]
  | neg f ih => exact ih hx hb h
  | and fs ih =>
    simp only [Form.funs, Form.binders, Form.mem_funsL, Form.mem_bindersL, not_exists, not_and] at hx hb
    simp only [Form.replaceTermByTerm, Used, UsedL_iff, Form.replaceTermByTermL_fst, List.mem_map] at h ⊢
    rintro _ ⟨a, ha, rfl⟩
    exact ih a ha (hx a ha) (hb a ha) (h a ha)
  | or fs ih =>
    simp only [Form.funs, Form.binders, Form.mem_funsL, Form.mem_bindersL, not_exists, not_and] at hx hb
    simp only [Form.replaceTermByTerm, Used, UsedL_iff, Form.replaceTermByTermL_fst, List.mem_map] at h ⊢
    rintro _ ⟨a, ha, rfl⟩
    exact ih a ha (hx a ha) (hb a ha) (h a ha)
  | imp f g ihf ihg =>
    simp only [Form.funs, Form.binders, List.mem_append, not_or] at hx hb
    exact ⟨ihf hx.1 hb.1 h.1, ihg hx.2 hb.2 h.2⟩
  | equ f g ihf ihg =>
    simp only [Form.funs, Form.binders, List.mem_append, not_or] at hx hb
    exact ⟨ihf hx.1 hb.1 h.1, ihg hx.2 hb.2 h.2⟩
  | all vs f ih =>
    simp only [Form.binders, List.mem_append, not_or, List.mem_map, not_exists, not_and] at hb
    exact ⟨fun v hv => replace_vars hx (hb.1 v hv) (h.1 v hv), ih hx hb.2 h.2⟩
  | ex vs f ih =>
    simp only [Form.binders, List.mem_append, not_or, List.mem_map, not_exists, not_and] at hb
    exact ⟨fun v hv => replace_vars hx (hb.1 v hv) (h.1 v hv), ih hx hb.2 h.2⟩

theorem NoAll.replace {o t : Term} {f : Form} : ∀ {pol : Bool}, NoAll pol f → NoAll pol (f.replaceTermByTerm o t).1 := by
  induction f using Form.ind with
  | pred q tys args => intro pol _; simp [Form.replaceTermByTerm, NoAll]
  | top => intro pol _; simp [Form.replaceTermByTerm, NoAll]
  | bot => intro pol _; simp [Form.replaceTermByTerm, NoAll]
  | neg f ih => intro pol h; exact ih h
  | and fs ih =>
    intro pol h
    simp only [Form.replaceTermByTerm, NoAll, NoAllL_iff, Form.replaceTermByTermL_fst, List.mem_map] at h ⊢
    rintro _ ⟨a, ha, rfl⟩
    exact ih a ha (h a ha)
  | or fs ih =>
    intro pol h
    simp only [Form.replaceTermByTerm, NoAll, NoAllL_iff, Form.replaceTermByTermL_fst, List.mem_map] at h ⊢
    rintro _ ⟨a, ha, rfl⟩
    exact ih a ha (h a ha)
  | imp f g ihf ihg => intro pol h; exact ⟨ihf h.1, ihg h.2⟩
  | equ f g ihf ihg => intro pol h; exact ⟨ihf h.1, ihf h.2.1, ihg h.2.2.1, ihg h.2.2.2⟩
  | all vs f ih => intro pol h; exact ⟨h.1, ih h.2⟩
  | ex vs f ih => intro pol h; exact ⟨h.1, ih h.2⟩

/-! ### The formulas of a branch -/

/-- What holds for all formulas of a branch. -/
structure Neat (f : Form) : Prop where
  nodup : f.binders.Nodup
  funs : ∀ i ∈ f.binders, i ∉ f.funs
  used : Used f
  pol : NoAll true f

theorem tidy_member {fs : List Form} (h1 : (Form.bindersL fs).Nodup) (h2 : ∀ i ∈ Form.bindersL fs, i ∉ Form.funsL fs) {f : Form} (hf : f ∈ fs) :
    f.binders.Nodup ∧ ∀ i ∈ f.binders, i ∉ f.funs :=
  ⟨nodup_of_bindersL h1 hf, fun i hi hi' => h2 i (Form.mem_bindersL.2 ⟨f, hf, hi⟩) (Form.mem_funsL.2 ⟨f, hf, hi'⟩)⟩

theorem tidy_two {f g : Form} (h1 : (f.binders ++ g.binders).Nodup) (h2 : ∀ i ∈ f.binders ++ g.binders, i ∉ f.funs ++ g.funs) :
    (f.binders.Nodup ∧ ∀ i ∈ f.binders, i ∉ f.funs) ∧ g.binders.Nodup ∧ ∀ i ∈ g.binders, i ∉ g.funs := by
  obtain ⟨a, b, -⟩ := List.nodup_append.1 h1
  exact ⟨⟨a, fun i hi hi' => h2 i (by simp [hi]) (by simp [hi'])⟩, b, fun i hi hi' => h2 i (by simp [hi]) (by simp [hi'])⟩

theorem Neat.alpha {rule : Rule} {f : Form} {ps : List Form} (h : Neat f) (hp : alphaParts rule f = some ps) : ∀ g ∈ ps, Neat g := by
  obtain ⟨h1, h2, h3, h4⟩ := h
  unfold alphaParts at hp
  split at hp <;> cases hp
  · intro g hg
    obtain rfl := List.mem_singleton.1 hg
    exact ⟨h1, h2, h3, h4⟩
  · intro g hg
    obtain ⟨a, ha, rfl⟩ := List.mem_map.1 hg
    obtain ⟨k1, k2⟩ := tidy_member h1 h2 ha
    exact ⟨k1, k2, UsedL_iff.1 h3 a ha, NoAllL_iff.1 h4 a ha⟩
  · obtain ⟨⟨a1, a2⟩, b1, b2⟩ := tidy_two h1 h2
    intro g hg
    simp only [List.mem_cons, List.not_mem_nil, or_false] at hg
    rcases hg with rfl | rfl
    · exact ⟨a1, a2, h3.1, h4.1⟩
    · exact ⟨b1, b2, h3.2, h4.2⟩
  · intro g hg
    obtain ⟨k1, k2⟩ := tidy_member h1 h2 hg
    exact ⟨k1, k2, UsedL_iff.1 h3 g hg, NoAllL_iff.1 h4 g hg⟩

theorem Neat.beta {rule : Rule} {f : Form} {ps : List (List Form)} (h : Neat f) (hp : betaParts rule f = some ps) : ∀ G ∈ ps, ∀ g ∈ G, Neat g := by
  obtain ⟨h1, h2, h3, h4⟩ := h
  unfold betaParts at hp
  split at hp <;> cases hp
  · intro G hG g hg
    obtain ⟨a, ha, rfl⟩ := List.mem_map.1 hG
    obtain rfl := List.mem_singleton.1 hg
    obtain ⟨k1, k2⟩ := tidy_member h1 h2 ha
    exact ⟨k1, k2, UsedL_iff.1 h3 a ha, NoAllL_iff.1 h4 a ha⟩
  · obtain ⟨⟨a1, a2⟩, b1, b2⟩ := tidy_two h1 h2
    intro G hG g hg
    simp only [List.mem_cons, List.not_mem_nil, or_false] at hG
    rcases hG with rfl | rfl <;> simp only [List.mem_cons, List.not_mem_nil, or_false] at hg <;> rcases hg with rfl | rfl
    · exact ⟨a1, a2, h3.1, h4.2.1⟩
    · exact ⟨b1, b2, h3.2, h4.2.2.1⟩
    · exact ⟨a1, a2, h3.1, h4.1⟩
    · exact ⟨b1, b2, h3.2, h4.2.2.2⟩
  · intro G hG g hg
    obtain ⟨a, ha, rfl⟩ := List.mem_map.1 hG
    obtain rfl := List.mem_singleton.1 hg
    obtain ⟨k1, k2⟩ := tidy_member h1 h2 ha
    exact ⟨k1, k2, UsedL_iff.1 h3 g ha, NoAllL_iff.1 h4 g ha⟩
  · obtain ⟨⟨a1, a2⟩, b1, b2⟩ := tidy_two h1 h2
    intro G hG g hg
    simp only [List.mem_cons, List.not_mem_nil, or_false] at hG
    rcases hG with rfl | rfl <;> obtain rfl := List.mem_singleton.1 hg
    · exact ⟨a1, a2, h3.1, h4.1⟩
    · exact ⟨b1, b2, h3.2, h4.2⟩
  · obtain ⟨⟨a1, a2⟩, b1, b2⟩ := tidy_two h1 h2
    intro G hG g hg
    simp only [List.mem_cons, List.not_mem_nil, or_false] at hG
    rcases hG with rfl | rfl <;> simp only [List.mem_cons, List.not_mem_nil, or_false] at hg <;> rcases hg with rfl | rfl
    · exact ⟨a1, a2, h3.1, h4.2.1⟩
    · exact ⟨b1, b2, h3.2, h4.2.2.2⟩
    · exact ⟨a1, a2, h3.1, h4.1⟩
    · exact ⟨b1, b2, h3.2, h4.2.2.1⟩

theorem Neat.not_gamma {rule : Rule} {f : Form} {x : Nat} {b : Form} (h : Neat f) (hr : rule.isGamma = true) : quantParts rule f ≠ some (x, b) := by
  intro hp
  have := h.pol
  unfold quantParts at hp
  split at hp <;> first | cases hp | skip
  · simp [NoAll] at this
  · simp [NoAll] at this
  · cases hr
  · cases hr

theorem Neat.delta {rule : Rule} {f : Form} {x : Nat} {b : Form} (h : Neat f) (hr : rule.isDelta = true) (hp : quantParts rule f = some (x, b)) :
    x ∉ b.funs ∧ x ∉ b.binders ∧ x ∈ allVars b ∧ Neat b := by
  obtain ⟨h1, h2, h3, h4⟩ := h
  unfold quantParts at hp
  split at hp <;> first | cases hp | skip
  · cases hr
  · cases hr
  · rename_i v vs f
    simp only [Form.binders, Form.funs, List.map_cons, List.cons_append] at h1 h2
    obtain ⟨n1, n2⟩ := List.nodup_cons.1 h1
    cases vs with
    | nil => exact ⟨h2 _ (by simp), n1, h3.1 v (by simp), n2, fun i hi => h2 i (by simp at hi ⊢; exact .inr hi), h3.2, h4.2⟩
    | cons u vs =>
      exact ⟨h2 _ (by simp), n1, h3.1 v (by simp), n2, fun i hi => h2 i (List.mem_cons_of_mem _ hi),
        ⟨fun w hw => h3.1 w (List.mem_cons_of_mem _ hw), h3.2⟩, h4⟩
  · rename_i v vs f
    simp only [Form.binders, Form.funs, List.map_cons, List.cons_append] at h1 h2
    obtain ⟨n1, n2⟩ := List.nodup_cons.1 h1
    cases vs with
    | nil => exact ⟨h2 _ (by simp), n1, h3.1 v (by simp), n2, fun i hi => h2 i (by simp at hi ⊢; exact .inr hi), h3.2, h4.2⟩
    | cons u vs =>
      exact ⟨h2 _ (by simp), n1, h3.1 v (by simp), n2, fun i hi => h2 i (List.mem_cons_of_mem _ hi),
        ⟨fun w hw => h3.1 w (List.mem_cons_of_mem _ hw), h3.2⟩, h4⟩

theorem Neat.replace {x : Nat} {b : Form} {t : Term} (h : Neat b) (h1 : x ∉ b.funs) (h2 : x ∉ b.binders) (ht : t ≠ .var x)
    (hf : ∀ i ∈ t.funs, i ∉ b.binders) : Neat (b.replaceTermByTerm (.var x) t).1 := by
  refine ⟨by rw [Form.binders_replaceTermByTerm]; exact h.nodup, ?_, h.used.replace h1 h2, h.pol.replace⟩
  rw [Form.binders_replaceTermByTerm]
  intro i hi hi'
  rcases Form.replaceTermByTerm_funs _ _ ht hi' with k | k
  · exact h.funs i hi k
  · exact hf i k hi

/-- Such a tableau is one that the GS3 module translates. -/
theorem Tableau.closed_delta {Γ : List Form} {l : List PS} (h : Tableau true Γ l) (hp : ∀ g ∈ Γ, Neat g) : Gs3.Closed Γ l := by
  induction h with
  | ax h => exact .ax h
  | reintro _ _ ih => exact .reintro (ih hp)
  | alpha h1 h2 h3 h4 _ ih =>
    refine .alpha h1 h2 h3 h4 (ih fun g hg => ?_)
    rcases List.mem_append.1 hg with hg | hg
    · exact hp g hg
    · exact (hp _ h1).alpha h3 g (h4 g hg)
  | gamma h1 h2 h3 => exact absurd h3 ((hp _ h1).not_gamma h2)
  | delta h1 h2 h3 h4 _ ih =>
    obtain ⟨k1, k2, k3⟩ := h4 rfl
    obtain ⟨d1, d2, d3, d4⟩ := (hp _ h1).delta h2 h3
    refine .delta h1 h2 h3 d1 d2 d3 k2 k1 (ih fun g hg => ?_)
    rcases List.mem_append.1 hg with hg | hg
    · exact hp g hg
    · rw [List.mem_singleton.1 hg]
      exact d4.replace d1 d2 (by simp) k3
  | beta h1 h2 h3 h4 _ ih =>
    refine .beta h1 h2 h3 h4 fun i G c hG hc => ih i G c hG hc fun g hg => ?_
    rcases List.mem_append.1 hg with hg | hg
    · exact hp g hg
    · exact (hp _ h1).beta h3 G (List.mem_of_getElem? hG) g hg

/-- **C93 (partial), formulas whose quantifiers all assert the existence of something, with the GS3 module**: if each quantified variable occurs, the
module makes a refutation of the formula from the proof. -/
theorem C93_delta_gs3 {e : Env} (hU : Deep e.U) (hfu : 0 < e.fuel) (b : Start) (hw : Skolem ar e b) (limit cnt : Nat) {f : Form}
    (hf : Exist ar B true f) (hwf : WF f b.sk) (hu : Used f) (hq : NoPred e.eq f) (cs : List Choice) (s : Sys)
    (h : (start limit f).run e b cs = some s) (hr : s.result = some true) (cfg : Gs3.Cfg) :
    ∃ N, ∀ n, N ≤ n → ∃ a h T, Gs3.makeGS3 cfg n (finalProof e b limit cnt f cs) = .ok (a, h) ∧ Gs3.Repr 0 h a T ∧ Gs3.valid [f] T = true := by
  have ht := C93_delta_partial hU hfu b hw limit cnt hf hwf hq cs s h hr
  refine Gs3.C67_ordered_partial cfg f _ (ht.closed_delta ?_) ht.head
  intro g hg
  rw [List.mem_singleton.1 hg]
  exact ⟨hwf.nodup, fun i hi => (hwf.binders i hi).2, hu, hf.noAll⟩

/-- The formula of the example of `C93_delta_partial` meets the hypothesis; a formula with an idle quantifier does not. -/
example : Used Bad.deltaNo ∧ ¬ Used (.ex [⟨"X", 5, .constr "$i" []⟩] .top) := by
  simp [Bad.deltaNo, Bad.X, Bad.P, Bad.v, Used, UsedL, allVars, allVarsL, Term.vars, Term.varsL]

end Verif.Search.Main
