import Verif.Equality.BseBranch
/-!
# Computing one run of the equality reasoning

`Runs` and the relations under it (`Verif.Equality.Bse`) describe all runs. The functions below compute one of them: the children of a node of the
tree answer in order, and the first child with a solution is the one that is heard. They are used to show that a run exists.
-/

namespace Verif.Equality.Bse

open Verif.Unif Verif.Equality.LPO

variable (pr : Nat → Nat → Ordering) (au : AU) (n : Nat)

mutual
/-- One search in the tree (`Finds`). -/
def findF : Node Instr UT → M → Option (List UT)
  | .mk v ch fs, m => match exec au v m with
    | .fail => some []
    | .ok m' => match leaf au n m' fs, findL ch m' with
      | some own, some outs => some (own ++ outs.flatten)
      | _, _ => none
    | .panic => none
    | .out => none
def findL : List (Node Instr UT) → M → Option (List (List UT))
  | [], _ => some []
  | t :: l, m => match findF t m, findL l m with
    | some o, some os => some (o :: os)
    | _, _ => none
end

theorem findL_get {l : List (Node Instr UT)} {m : M} {outs : List (List UT)} (h : findL au n l m = some outs) :
    outs.length = l.length ∧ ∀ i (h1 : i < l.length) (h2 : i < outs.length), findF au n l[i] m = some outs[i] := by
  induction l generalizing outs with
  | nil =>
    simp only [findL, Option.some.injEq] at h
    subst h
    simp
  | cons t l ih =>
    simp only [findL] at h
    split at h
    · rename_i o os ho hos
      simp only [Option.some.injEq] at h
      subst h
      obtain ⟨h1, h2⟩ := ih hos
      refine ⟨by simp [h1], fun i h3 h4 => ?_⟩
      cases i with
      | zero => simpa using ho
      | succ i => simpa using h2 i (by simpa using h3) (by simpa using h4)
    · cases h

theorem findF_sound : ∀ (t : Node Instr UT) (m : M) (out : List UT), findF au n t m = some out → Finds au n t m out := by
  intro t
  refine Node.rec (motive_1 := fun t => ∀ (m : M) (out : List UT), findF au n t m = some out → Finds au n t m out)
    (motive_2 := fun l => ∀ t ∈ l, ∀ (m : M) (out : List UT), findF au n t m = some out → Finds au n t m out) ?_ ?_ ?_ t
  · intro v ch fs ih m out h
    simp only [findF] at h
    split at h
    · simp only [Option.some.injEq] at h
      subst h
      exact .fail ‹_›
    · rename_i m' hm
      split at h
      · rename_i own outs ho hos
        simp only [Option.some.injEq] at h
        subst h
        obtain ⟨h1, h2⟩ := findL_get au n hos
        exact .ok hm ho h1 (fun i h3 h4 => ih _ (List.getElem_mem h3) _ _ (h2 i h3 h4)) (List.Perm.refl _)
      · cases h
    · cases h
    · cases h
  · simp
  · intro t l h1 h2 a ha
    rcases List.mem_cons.1 ha with rfl | ha
    · exact h1
    · exact h2 a ha

/-- `Pairs`. -/
def pairsF (T : Node Instr UT) : List UT → Option (List (UT × UT))
  | [] => some []
  | .mv _ :: l => pairsF T l
  | .fn p args :: l => match findF au n T { terms := [.fn p args] }, pairsF T l with
    | some out, some ps => some (out.map (fun u => (.fn p args, u)) ++ ps)
    | _, _ => none

theorem pairsF_sound (T : Node Instr UT) : ∀ (l : List UT) (ps : List (UT × UT)), pairsF au n T l = some ps → Pairs au n T l ps
  | [], ps, h => by
    simp only [pairsF, Option.some.injEq] at h
    subst h
    exact .nil
  | .mv _ :: l, ps, h => .mv (pairsF_sound T l ps h)
  | .fn p args :: l, ps, h => by
    simp only [pairsF] at h
    split at h
    · simp only [Option.some.injEq] at h
      subst h
      exact .fn (findF_sound au n _ _ _ ‹_›) (pairsF_sound T l _ ‹_›)
    · cases h

/-- `RulesFor`. -/
def rulesF (ep : Prob) (s t : UT) (left : Option Nat) (sMod : Bool) : Option (List Rule) :=
  match tree ep.E with
  | none => none
  | some T => (pairsF au n T (subs s)).map fun ps => connect ep.E s t left sMod ps

theorem rulesF_sound {ep : Prob} {s t : UT} {left : Option Nat} {sMod : Bool} {rs : List Rule} (h : rulesF au n ep s t left sMod = some rs) :
    RulesFor au n ep s t left sMod rs := by
  unfold rulesF at h
  split at h
  · cases h
  · obtain ⟨ps, h1, h2⟩ := Option.map_eq_some_iff.1 h
    exact ⟨_, ps, ‹_›, pairsF_sound au n _ _ _ h1, h2.symm⟩

/-- `RightRules`. -/
def rightF (ep : Prob) : Option (List Rule) :=
  match rulesF au n ep ep.s ep.t none true, rulesF au n ep ep.t ep.s none false with
  | some a, some b => some (a ++ b)
  | _, _ => none

theorem rightF_sound {ep : Prob} {rs : List Rule} (h : rightF au n ep = some rs) : RightRules au n ep rs := by
  unfold rightF at h
  split at h
  · simp only [Option.some.injEq] at h
    exact ⟨_, _, rulesF_sound au n ‹_›, rulesF_sound au n ‹_›, h.symm⟩
  · cases h

/-- `LeftLoop`. -/
def leftF (ep : Prob) : Nat → List (UT × UT) → Option (List Rule)
  | _, [] => some []
  | i, e :: es => match rulesF au n ep e.1 e.2 (some i) true, rulesF au n ep e.2 e.1 (some i) false, leftF ep (i + 1) es with
    | some a, some b, some rs => some (a ++ b ++ rs)
    | _, _, _ => none

theorem leftF_sound {ep : Prob} (es : List (UT × UT)) : ∀ (i : Nat) (rs : List Rule), leftF au n ep i es = some rs → LeftLoop au n ep i es rs := by
  induction es with
  | nil =>
    intro i rs h
    simp only [leftF, Option.some.injEq] at h
    subst h
    exact .nil
  | cons e es ih =>
    intro i rs h
    simp only [leftF] at h
    split at h
    · simp only [Option.some.injEq] at h
      subst h
      exact .cons (rulesF_sound au n ‹_›) (rulesF_sound au n ‹_›) (ih _ _ ‹_›)
    · cases h

/-- The first child that answers with a solution; `some none` if all answer without one. -/
def first (run : Rule → Option (Bool × List Subst)) : List Rule → Option (Option (List Subst))
  | [] => some none
  | r :: rs => match run r with
    | some (true, ss) => some (some ss)
    | some (false, _) => first run rs
    | none => none

theorem first_some {run : Rule → Option (Bool × List Subst)} {rs : List Rule} {ss : List Subst} (h : first run rs = some (some ss)) :
    ∃ r ∈ rs, run r = some (true, ss) := by
  induction rs with
  | nil => simp [first] at h
  | cons r rs ih =>
    simp only [first] at h
    split at h
    · simp only [Option.some.injEq] at h
      subst h
      exact ⟨r, by simp, ‹_›⟩
    · obtain ⟨r', h1, h2⟩ := ih h
      exact ⟨r', by simp [h1], h2⟩
    · cases h

theorem first_none {run : Rule → Option (Bool × List Subst)} {rs : List Rule} (h : first run rs = some none) :
    ∀ r ∈ rs, run r = some (false, ((run r).map (·.2)).getD []) := by
  induction rs with
  | nil => simp
  | cons r rs ih =>
    simp only [first] at h
    split at h
    · cases h
    · rename_i ss hr
      intro r' hr'
      rcases List.mem_cons.1 hr' with rfl | hr'
      · simp [hr]
      · exact ih h r' hr'
    · cases h

/-- One run of a goroutine, with a bound on the depth. -/
def runF : Nat → Job → Option (Bool × List Subst)
  | 0, _ => none
  | k + 1, .rule ep r => match next pr au ep r with
    | .ok none => some (false, [])
    | .ok (some ep') => runF k (.prob ep' r.left)
    | _ => none
  | k + 1, .prob ep last => match check pr au ep last with
    | .ok us =>
      if ep.s = ep.t then some (true, us)
      else match rightF au n ep with
        | none => none
        | some rs => match first (fun r => runF k (.rule ep r)) rs with
          | none => none
          | some (some ss) => some (true, us ++ ss.foldl addSubst [])
          | some none => match leftF au n ep (last.getD 0) (ep.E.drop (last.getD 0)) with
            | none => none
            | some ls => match first (fun r => runF k (.rule ep r)) ls with
              | none => none
              | some (some ss) => some (true, us ++ ss.foldl addSubst [])
              | some none => some (!us.isEmpty, us)
    | _ => none

/-- What is computed is a possible run. -/
theorem runF_sound : ∀ (k : Nat) (j : Job) (b : Bool) (ss : List Subst), runF pr au n k j = some (b, ss) → Runs pr au n j b ss := by
  intro k
  induction k with
  | zero => intro j b ss h; cases h
  | succ k ih =>
    intro j b ss h
    cases j with
    | rule ep r =>
      simp only [runF] at h
      split at h
      · simp only [Option.some.injEq, Prod.mk.injEq] at h
        obtain ⟨rfl, rfl⟩ := h
        exact .refused ‹_›
      · exact .applied ‹_› (ih _ _ _ h)
      · cases h
    | prob ep last =>
      simp only [runF] at h
      split at h
      · rename_i us hu
        split at h
        · simp only [Option.some.injEq, Prod.mk.injEq] at h
          obtain ⟨rfl, rfl⟩ := h
          exact .stop ‹_› hu
        · rename_i hne
          split at h
          · cases h
          · rename_i rs hrs
            split at h
            · cases h
            · rename_i ss' hss
              simp only [Option.some.injEq, Prod.mk.injEq] at h
              obtain ⟨rfl, rfl⟩ := h
              obtain ⟨r, hr, hrun⟩ := first_some hss
              exact .right hne hu (rightF_sound au n hrs) hr (ih _ _ _ hrun)
            · rename_i hno
              have hf := first_none hno
              split at h
              · cases h
              · rename_i ls hls
                have hl : LeftRules au n ep (last.getD 0) ls := leftF_sound au n _ _ _ hls
                split at h
                · cases h
                · rename_i ss' hss
                  simp only [Option.some.injEq, Prod.mk.injEq] at h
                  obtain ⟨rfl, rfl⟩ := h
                  obtain ⟨r, hr, hrun⟩ := first_some hss
                  exact .left hne hu (rightF_sound au n hrs) (fun r hr => ih _ _ _ (hf r hr)) hl hr (ih _ _ _ hrun)
                · rename_i hno'
                  simp only [Option.some.injEq, Prod.mk.injEq] at h
                  obtain ⟨rfl, rfl⟩ := h
                  exact .none hne hu (rightF_sound au n hrs) (fun r hr => ih _ _ _ (hf r hr)) hl (fun r hr => ih _ _ _ (first_none hno' r hr))
      · cases h

end Verif.Equality.Bse
