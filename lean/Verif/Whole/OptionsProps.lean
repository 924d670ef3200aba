import Verif.Whole.OptionsSettings
/-!
# C100: which options have their effect
-/

namespace Verif.Options

/-! ### Reading -/

theorem find_name (f : Flag) : find f.name = some f := by
  cases f with
  | bool o => cases o <;> decide +kernel
  | int o => cases o <;> decide +kernel
  | str o => cases o <;> decide +kernel

theorem name_ok (f : Flag) : '=' ∉ f.name ∧ ∃ c s, f.name = c :: s ∧ c ≠ '-' ∧ c ≠ '=' := by
  have : ('=' ∉ f.name) ∧ ∃ c, f.name.head? = some c ∧ c ≠ '-' ∧ c ≠ '=' := by
    cases f with
    | bool o => cases o <;> exact ⟨by decide +kernel, _, rfl, by decide, by decide⟩
    | int o => cases o <;> exact ⟨by decide +kernel, _, rfl, by decide, by decide⟩
    | str o => cases o <;> exact ⟨by decide +kernel, _, rfl, by decide, by decide⟩
  obtain ⟨h1, c, h2, h3⟩ := this
  obtain ⟨s, hs⟩ := List.head?_eq_some_iff.1 h2
  exact ⟨h1, c, s, hs, h3⟩

theorem splitEq_none {a : Arg} (h : '=' ∉ a) : splitEq a = (a, none) := by
  induction a with
  | nil => rfl
  | cons c s ih =>
    have hs : '=' ∉ s := fun h' => h (List.mem_cons_of_mem _ h')
    unfold splitEq
    split
    · simp at hs
    · rw [ih hs]

theorem splitEq_some {a t : Arg} (hne : a ≠ []) (h : '=' ∉ a) : splitEq (a ++ '=' :: t) = (a, some t) := by
  induction a with
  | nil => exact absurd rfl hne
  | cons c s ih =>
    have hs : '=' ∉ s := fun h' => h (List.mem_cons_of_mem _ h')
    cases s with
    | nil => rfl
    | cons d s =>
      have hd : d ≠ '=' := fun h' => hs (by simp [h'])
      rw [List.cons_append, splitEq]
      · rw [ih (by simp) hs]
      · intro t' ht'
        simp only [List.cons_append, List.cons.injEq] at ht'
        exact hd ht'.1

theorem see_flag {f : Flag} {d t : Arg} (hd : d = "-".toList ∨ d = "--".toList) :
    see (d ++ f.name) = .flag f.name none ∧ see (d ++ f.name ++ '=' :: t) = .flag f.name (some t) := by
  obtain ⟨h1, c, s, h2, h3, h4⟩ := name_ok f
  have e1 := splitEq_none h1
  have e2 := splitEq_some (t := t) (by rw [h2]; simp) h1
  have m : "-".toList = ['-'] := by decide +kernel
  have mm : "--".toList = ['-', '-'] := by decide +kernel
  rw [h2] at e1 e2 ⊢
  rcases hd with rfl | rfl
  · rw [m]
    constructor
    · simp [see, h3, h4, e1]
    · simp only [List.cons_append] at e2
      simp [see, h3, h4, e2]
  · rw [mm]
    constructor
    · simp [see, h3, h4, e1]
    · simp only [List.cons_append] at e2
      simp [see, h3, h4, e2]

theorem parse_written {pInt : Arg → Option Int} {a rest : List Arg} {f : Flag} {x : Val} {v : Vals} (h : Written pInt a f x) :
    parse pInt (a ++ rest) v = parse pInt rest (v.set f x) := by
  have bt : ∀ {t : Arg} {x : Bool}, (t = "true".toList ∧ x = true ∨ t = "false".toList ∧ x = false) → parseBool t = some x := by
    rintro t x (⟨rfl, rfl⟩ | ⟨rfl, rfl⟩) <;> decide +kernel
  cases h with
  | on hd => simp [parse, (see_flag (t := []) hd).1, find_name]
  | @bool o d t x hd ht =>
    have := (see_flag (f := .bool o) (t := t) hd).2
    simp only [List.append_assoc] at this
    simp [parse, this, find_name, parseVal, bt ht]
  | @int o d t x hd ht =>
    have := (see_flag (f := .int o) (t := t) hd).2
    simp only [List.append_assoc] at this
    simp [parse, this, find_name, parseVal, ht]
  | intNext hd ht => simp [parse, (see_flag (t := []) hd).1, find_name, parseVal, ht]
  | @str o d t hd =>
    have := (see_flag (f := .str o) (t := t) hd).2
    simp only [List.append_assoc] at this
    simp [parse, this, find_name, parseVal]
  | strNext hd => simp [parse, (see_flag (t := []) hd).1, find_name, parseVal]

/-- The values after a list of options. -/
def setAll (L : List (Flag × Val)) (v : Vals) : Vals := L.foldl (fun v p => v.set p.1 p.2) v

theorem parse_line {pInt : Arg → Option Int} {file : Arg} {args : List Arg} {L : List (Flag × Val)} {v : Vals} (h : Line pInt file args L) :
    parse pInt args v = some (setAll L v, [file]) := by
  induction h generalizing v with
  | nil hf =>
    have : see file = .done := by
      unfold see
      split
      · simp at hf
      · rfl
    simp [parse, this, setAll]
  | cons hw _ ih => rw [parse_written hw, ih]; rfl

theorem line_last {pInt : Arg → Option Int} {file : Arg} {args : List Arg} {L : List (Flag × Val)} (h : Line pInt file args L) :
    args.getLastD [] = file := by
  have : args ≠ [] ∧ ∀ d, args.getLastD d = file := by
    induction h with
    | nil _ => simp
    | @cons a f x args L _ _ ih =>
      refine ⟨by simp [ih.1], fun d => ?_⟩
      have := ih.2 d
      rw [List.getLastD_eq_getLast?] at this ⊢
      obtain ⟨y, l, hl⟩ := List.exists_cons_of_ne_nil ih.1
      rw [hl] at this ⊢
      rw [List.getLast?_append]
      cases hx : (y :: l).getLast? with
      | none => simp at hx
      | some z => rw [hx] at this; exact this
  exact this.2 []

/-! ### Values -/

/-- The value of an option. -/
def Vals.get (v : Vals) : Flag → Val
  | .bool o => .b (v.b o)
  | .int o => .i (v.i o)
  | .str o => .s (v.s o)

/-- A value of the right kind. -/
def Fits : Flag → Val → Prop
  | .bool _, .b _ => True
  | .int _, .i _ => True
  | .str _, .s _ => True
  | _, _ => False

theorem get_set {v : Vals} {f g : Flag} {x : Val} (h : Fits f x) : (v.set f x).get g = if g = f then x else v.get g := by
  cases f <;> cases x <;> simp only [Fits] at h <;> cases g <;> simp [Vals.set, Vals.get] <;> split <;> simp_all

theorem Written.fits {pInt : Arg → Option Int} {a : List Arg} {f : Flag} {x : Val} (h : Written pInt a f x) : Fits f x := by
  cases h <;> trivial

theorem Line.fits {pInt : Arg → Option Int} {file : Arg} {args : List Arg} {L : List (Flag × Val)} (h : Line pInt file args L) :
    ∀ p ∈ L, Fits p.1 p.2 := by
  induction h with
  | nil _ => simp
  | cons hw _ ih =>
    intro p hp
    rcases List.mem_cons.1 hp with rfl | hp
    · exact hw.fits
    · exact ih p hp

theorem get_setAll {L : List (Flag × Val)} {v : Vals} {g : Flag} (hf : ∀ p ∈ L, Fits p.1 p.2) (hn : (L.map (·.1)).Nodup) :
    (setAll L v).get g = (L.lookup g).getD (v.get g) := by
  induction L generalizing v with
  | nil => rfl
  | cons p L ih =>
    obtain ⟨f, x⟩ := p
    simp only [List.map_cons, List.nodup_cons] at hn
    have := ih (v := v.set f x) (fun p hp => hf p (List.mem_cons_of_mem _ hp)) hn.2
    have hs : setAll ((f, x) :: L) v = setAll L (v.set f x) := rfl
    rw [hs, this, get_set (hf (f, x) (by simp)), List.lookup_cons]
    by_cases hg : g = f
    · subst hg
      have : L.lookup g = none := by
        rw [List.lookup_eq_none_iff]
        intro q hq
        have : g ≠ q.1 := fun h => hn.1 (h ▸ List.mem_map_of_mem hq)
        simpa using this
      simp [this]
    · have : (g == f) = false := by simpa using hg
      simp [this, hg]

theorem get_init (f : Flag) : Vals.init.get f = f.dflt := by
  cases f with
  | bool o => rfl
  | int o => rfl
  | str o => cases o <;> rfl

/-- The value of every option is the one it is given on the command line. -/
theorem get_value {L : List (Flag × Val)} (hf : ∀ p ∈ L, Fits p.1 p.2) (hn : (L.map (·.1)).Nodup) (g : Flag) : (setAll L .init).get g = value L g := by
  rw [get_setAll hf hn, get_init]; rfl

theorem value_mem {L : List (Flag × Val)} {f : Flag} {x : Val} (hn : (L.map (·.1)).Nodup) (h : (f, x) ∈ L) : value L f = x := by
  unfold value
  induction L with
  | nil => simp at h
  | cons p L ih =>
    obtain ⟨g, y⟩ := p
    simp only [List.map_cons, List.nodup_cons] at hn
    rw [List.lookup_cons]
    rcases List.mem_cons.1 h with h | h
    · cases h; simp
    · have : f ≠ g := fun e => hn.1 (e ▸ List.mem_map_of_mem (f := (·.1)) h)
      have : (f == g) = false := by simpa using this
      rw [this]
      exact ih hn.2 h

/-- **C100, reading**: the program does what it does for the values given on the command line, and takes the last argument as the problem. -/
theorem start_line {pInt : Arg → Option Int} {file : Arg} {args : List Arg} {L : List (Flag × Val)} (h : Line pInt file args L) :
    start pInt args = withVals file (setAll L .init) := by
  simp only [start, parse_line h, line_last h]

theorem vals_ext {v w : Vals} (h : ∀ f, v.get f = w.get f) : v = w := by
  obtain ⟨a, b, c⟩ := v
  obtain ⟨a', b', c'⟩ := w
  congr
  · funext o; simpa [Vals.get] using h (.bool o)
  · funext o; simpa [Vals.get] using h (.int o)
  · funext o; simpa [Vals.get] using h (.str o)

/-- **C100, order**: the order of the options does not matter, nor does the way they are written. -/
theorem C100_order (pInt : Arg → Option Int) (file : Arg) (args args' : List Arg) (L L' : List (Flag × Val)) (h : Line pInt file args L)
    (h' : Line pInt file args' L') (hn : (L.map (·.1)).Nodup) (hp : L.Perm L') : start pInt args = start pInt args' := by
  have hn' : (L'.map (·.1)).Nodup := (hp.map _).nodup_iff.1 hn
  rw [start_line h, start_line h', vals_ext (v := setAll L .init) (w := setAll L' .init)]
  intro f
  rw [get_value h.fits hn, get_value h'.fits hn']
  by_cases hf : ∃ x, (f, x) ∈ L
  · obtain ⟨x, hx⟩ := hf
    rw [value_mem hn hx, value_mem hn' (hp.mem_iff.1 hx)]
  · have no : ∀ {M : List (Flag × Val)}, (∀ x, (f, x) ∉ M) → value M f = f.dflt := by
      intro M hM
      have : M.lookup f = none := by
        rw [List.lookup_eq_none_iff]
        intro q hq
        have : f ≠ q.1 := fun e => hM q.2 (by rw [e]; exact hq)
        simpa using this
      rw [value, this]; rfl
    rw [no fun x hx => hf ⟨x, hx⟩, no fun x hx => hf ⟨x, hp.mem_iff.2 hx⟩]

/-! ### Effects -/

/-- The combinations for which the options have their effect: no `-ari` and `-type_proof`; one Skolemisation; not both TPTP formats; a Rocq proof comes alone or with the
text; the incremental search without the options it does not read, and without equality. -/
def Works (L : List (Flag × Val)) : Prop :=
  (¬ gives L .ari ∧ ¬ gives L .type_proof) ∧ (gives L .inner → ¬ gives L .preinner) ∧ (gives L .otptp → ¬ gives L .osctptp) ∧
  (gives L .orocq → ¬ gives L .otptp ∧ ¬ gives L .osctptp ∧ ¬ gives L .olp) ∧
  (gives L .incr → gives L .noeq ∧ ¬ gives L .sateq ∧ ¬ gives L .one_step ∧ ¬ gives L .exchanges ∧ ¬ gives L .dmt ∧ ¬ gives L .completeness ∧ ¬ gives L .vec)

/-- What is printed. -/
theorem outputs_of (v : Vals) (file : Arg) : (use file (settings v)).outputs =
    if v.b .proof || v.b .orocq || v.b .otptp || v.b .osctptp || v.b .olp then
      outputs (v.b .osctptp) (outsOf (v.b .proof) (v.b .orocq) (v.b .otptp) (v.b .osctptp) (v.b .olp)) ⟨false, v.b .pretty, v.b .print_id, v.b .quoted_pred⟩
    else [] := by
  simp only [use, settings_proof, settings_sc, settings_outs, settings_printer]

set_option maxHeartbeats 4000000 in
/-- The effects, for the values of the options. -/
theorem effects (L : List (Flag × Val)) (v : Vals) (file : Arg) (hv : ∀ f, v.get f = value L f) (ha : Allowed L) (hw : Works L) (hnd : v.b .nd = false)
    (hver : v.b .version = false) (hdbg : v.b .list_debuggers = false) (has : v.b .assisted = true → v.b .incr = false) :
    (∀ f, Effect L (use file (settings v)) f (value L f)) ∧ (¬ gives L .noeq → (use file (settings v)).eq ≠ .off) := by
  have g : ∀ o, gives L o ↔ v.b o = true := fun o => by
    unfold gives
    rw [← hv]
    simp [Vals.get]
  simp only [Works, Allowed, g] at ha hw
  obtain ⟨⟨w1, w2⟩, w3, w4, w5, w6⟩ := hw
  obtain ⟨a1, a2⟩ := ha
  have hl := hv (.int .l)
  simp only [Vals.get] at hl
  rw [← hl] at a1
  refine ⟨fun f => ?_, ?_⟩
  · rw [← hv]
    cases f with
    | bool o =>
      simp only [Vals.get]
      cases ho : v.b o with
      | false => cases o <;> exact trivial
      | true =>
        cases o with
        | proof | pretty | print_id | quoted_pred | orocq | otptp | osctptp | olp =>
          simp only [Effect, g, outputs_of]
          cases h1 : v.b .proof <;> cases h2 : v.b .orocq <;> cases h3 : v.b .otptp <;> cases h4 : v.b .osctptp <;> cases h5 : v.b .olp <;>
            simp_all [outputs, outsOf]
        | silent | quiet | show_trace | context | inner | preinner | chrono | flatten | no_type_check | incr | version | list_debuggers | nd | ari | type_proof =>
          simp_all [Effect, use, settings_silent, settings_quiet, settings_trace, settings_logTo, settings_cpu, settings_mem, settings_algo, settings_limit, settings_oneStep, settings_exchanges, settings_dmt, settings_dmtMode, settings_tryEq, settings_eqStruct, settings_dmtFirst, settings_cores, settings_complete, settings_context, settings_sko, settings_eagerEq, settings_incrEq, settings_chrono, settings_proofFile, settings_flatten, settings_typeCheck]
        | wlogs =>
          have := hv (.str .log)
          simp only [Vals.get] at this
          simp [Effect, use, settings_logTo, ho, ← this]
        | one_step | exchanges | dmt | polarized | presko | noeq | sateq | eagereq | increq | dmt_before_eq | completeness | assisted | vec =>
          cases hi : v.b .incr <;> simp_all [Effect, use, settings_silent, settings_quiet, settings_trace, settings_logTo, settings_cpu, settings_mem, settings_algo, settings_limit, settings_oneStep, settings_exchanges, settings_dmt, settings_dmtMode, settings_tryEq, settings_eqStruct, settings_dmtFirst, settings_cores, settings_complete, settings_context, settings_sko, settings_eagerEq, settings_incrEq, settings_chrono, settings_proofFile, settings_flatten, settings_typeCheck, maxInt]
    | int o =>
      cases o with
      | l =>
        simp only [Effect, Vals.get, use, settings_algo, settings_limit]
        by_cases h1 : v.i .l = -1
        · exact .inl h1
        · have : v.b .vec = false := by
            cases hc : v.b .vec with
            | false => rfl
            | true => exact absurd (Val.i.inj (a1 hc).1) h1
          cases hi : v.b .incr <;> simp [this, h1]
      | core_limit => simp [Effect, Vals.get, use, settings_cores]
    | str o => cases o <;> simp +contextual [Effect, Vals.get, use, g, settings_logTo, settings_cpu, settings_mem, settings_proofFile]
  · rw [g]
    intro hne
    cases hi : v.b .incr <;> cases hs : v.b .sateq <;> simp_all [use, settings_algo, settings_tryEq, settings_eqStruct]

/-- When the search is started. -/
theorem run_iff {file : Arg} {v : Vals} {r : Run} (h : withVals file v = .run r) :
    v.b .nd = false ∧ v.b .version = false ∧ v.b .list_debuggers = false ∧ (v.b .assisted = true → v.b .incr = false) ∧ r = use file (settings v) := by
  simp only [withVals, settings_version, settings_listDbg, settings_assisted, settings_algo] at h
  cases h1 : v.b .nd <;> cases h2 : v.b .version <;> cases h3 : v.b .list_debuggers <;> cases h4 : v.b .assisted <;> cases h5 : v.b .incr <;>
    simp_all

/-- **C100, combinations that work**: every option has its effect, or there is a message. Missing: `-ari` and `-type_proof`, two Skolemisations, two TPTP formats, a Rocq proof
together with one for another system, and the incremental search with equality or with an option it does not read; for these it is false (`C100_violated_…`). -/
theorem C100_effects_partial (pInt : Arg → Option Int) (file : Arg) (args : List Arg) (L : List (Flag × Val)) (h : Line pInt file args L)
    (hn : (L.map (·.1)).Nodup) (ha : Allowed L) (hw : Works L) : Heeded L file (start pInt args) := by
  rw [start_line h]
  have hv := get_value h.fits hn
  have g : ∀ o, gives L o ↔ (setAll L .init).b o = true := fun o => by
    unfold gives
    rw [← hv]
    simp [Vals.get]
  cases ho : withVals file (setAll L .init) with
  | error => trivial
  | version =>
    simp only [withVals, settings_version, settings_listDbg] at ho
    simp only [Heeded, g]
    cases h1 : (setAll L .init).b .nd <;> cases h2 : (setAll L .init).b .version <;> cases h3 : (setAll L .init).b .list_debuggers <;>
      simp [h1, h2, h3] at ho ⊢
    split at ho <;> cases ho
  | debuggers =>
    simp only [withVals, settings_version, settings_listDbg] at ho
    simp only [Heeded, g]
    cases h1 : (setAll L .init).b .nd <;> cases h2 : (setAll L .init).b .version <;> cases h3 : (setAll L .init).b .list_debuggers <;>
      simp [h1, h2, h3] at ho ⊢
    split at ho <;> cases ho
  | run r =>
    obtain ⟨h1, h2, h3, h4, rfl⟩ := run_iff ho
    obtain ⟨e1, e2⟩ := effects L _ file hv ha hw h1 h2 h3 h4
    exact ⟨rfl, fun f x hx => value_mem hn hx ▸ e1 f, e2⟩

/-- There is a message exactly for `-nd`, and for the assisted mode with the incremental search. -/
theorem C100_message (pInt : Arg → Option Int) (file : Arg) (args : List Arg) (L : List (Flag × Val)) (h : Line pInt file args L) (hn : (L.map (·.1)).Nodup)
    (hver : ¬ gives L .version) (hdbg : ¬ gives L .list_debuggers) :
    start pInt args = .error ↔ gives L .nd ∨ gives L .assisted ∧ gives L .incr := by
  rw [start_line h]
  have hv := get_value h.fits hn
  have g : ∀ o, gives L o ↔ (setAll L .init).b o = true := fun o => by
    unfold gives
    rw [← hv]
    simp [Vals.get]
  simp only [g] at hver hdbg ⊢
  simp only [withVals, settings_version, settings_listDbg, settings_assisted, settings_algo]
  cases h1 : (setAll L .init).b .nd <;> cases h4 : (setAll L .init).b .assisted <;> cases h5 : (setAll L .init).b .incr <;> simp [hver, hdbg]

/-! ### Violations -/

/-- **C100 violated, the incremental search**: it does not read the options for rounds, exchanges, completeness, rewriting and equality; with `-dmt` the axioms that are
made rewrite rules are taken out of the formula nevertheless. -/
theorem C100_violated_incr (pInt : Arg → Option Int) (file : Arg) (args : List Arg) (L : List (Flag × Val)) (h : Line pInt file args L) (hn : (L.map (·.1)).Nodup)
    (hi : gives L .incr) (r : Run) (hr : start pInt args = .run r) :
    r.oneRound = false ∧ r.exchanges = false ∧ r.complete = false ∧ r.bound = none ∧ r.eq = .off ∧ r.rewriting = none ∧ (gives L .dmt → r.consumed = true) := by
  rw [start_line h] at hr
  have hv := get_value h.fits hn
  have g : ∀ o, gives L o ↔ (setAll L .init).b o = true := fun o => by
    unfold gives
    rw [← hv]
    simp [Vals.get]
  obtain ⟨-, -, -, -, rfl⟩ := run_iff hr
  simp only [g] at hi ⊢
  simp [use, settings_algo, settings_dmt, hi]

/-- **C100 violated, Skolemisation**: with both options the inner one is not used. -/
theorem C100_violated_inner (pInt : Arg → Option Int) (file : Arg) (args : List Arg) (L : List (Flag × Val)) (h : Line pInt file args L) (hn : (L.map (·.1)).Nodup)
    (hi : gives L .preinner) (r : Run) (hr : start pInt args = .run r) : r.sko = .preinner := by
  rw [start_line h] at hr
  have hv := get_value h.fits hn
  have g : ∀ o, gives L o ↔ (setAll L .init).b o = true := fun o => by
    unfold gives
    rw [← hv]
    simp [Vals.get]
  obtain ⟨-, -, -, -, rfl⟩ := run_iff hr
  simp only [g] at hi
  simp [use, settings_sko, hi]

/-- **C100 violated, proofs**: after a Rocq proof the formulas of the other ones are printed as those of Rocq; with both TPTP options both proofs are SC-TPTP. -/
theorem C100_violated_outputs (pInt : Arg → Option Int) (file : Arg) (args : List Arg) (L : List (Flag × Val)) (h : Line pInt file args L) (hn : (L.map (·.1)).Nodup)
    (r : Run) (hr : start pInt args = .run r) :
    (gives L .orocq → ∀ f p, (f, p) ∈ r.outputs → f = .text ∨ p.1.rocq = true) ∧
    (gives L .osctptp → ∀ p, (.tptp, p) ∈ r.outputs → p.2 = true) := by
  rw [start_line h] at hr
  have hv := get_value h.fits hn
  have g : ∀ o, gives L o ↔ (setAll L .init).b o = true := fun o => by
    unfold gives
    rw [← hv]
    simp [Vals.get]
  obtain ⟨-, -, -, -, rfl⟩ := run_iff hr
  simp only [g, outputs_of]
  generalize (setAll L .init) = v
  cases h1 : v.b .proof <;> cases h2 : v.b .orocq <;> cases h3 : v.b .otptp <;> cases h4 : v.b .osctptp <;> cases h5 : v.b .olp <;>
    simp [outputs, outsOf]
  all_goals grind

/-- An option that needs no value, as it is written. -/
def opt (o : BOpt) : Arg := "-".toList ++ (Flag.bool o).name

/-- A command line of such options. -/
theorem line_opts (pInt : Arg → Option Int) (file : Arg) (hf : file.head? ≠ some '-') (l : List BOpt) :
    Line pInt file (l.map opt ++ [file]) (l.map fun o => (.bool o, .b true)) := by
  induction l with
  | nil => exact .nil hf
  | cons o l ih => exact Line.cons (a := [opt o]) (.on (.inl rfl)) ih

theorem C100_statement_false : ¬ C100_statement := by
  intro h
  have hl := line_opts (fun _ => none) "a.p".toList (by decide +kernel) [.incr, .noeq, .one_step]
  have hn : (([.incr, .noeq, .one_step] : List BOpt).map fun o => (Flag.bool o, Val.b true)).map (·.1) |>.Nodup := by decide
  have h' := h _ _ _ _ hl hn (by unfold Allowed; decide)
  cases hr : start (fun _ => none) (([.incr, .noeq, .one_step] : List BOpt).map opt ++ ["a.p".toList]) with
  | run r =>
    rw [hr] at h'
    have h1 := h'.2.1 (.bool .one_step) (.b true) (by simp)
    have h2 := (C100_violated_incr _ _ _ _ hl hn (by decide) r hr).1
    simp only [Effect] at h1
    rw [h1] at h2
    cases h2
  | error =>
    have := (C100_message _ _ _ _ hl hn (by decide) (by decide)).1 hr
    revert this
    decide
  | version => rw [hr] at h'; revert h'; unfold Heeded; decide
  | debuggers => rw [hr] at h'; revert h'; unfold Heeded; decide

/-! ### Cases -/

/-- The options that are recommended, with a limit as the next argument and two `-`. -/
def recommended : List Arg := [opt .dmt, opt .flatten, "--".toList ++ (Flag.int .l).name, "5".toList, opt .preinner, "a.p".toList]

def five : Arg → Option Int := fun t => if t = "5".toList then some 5 else none

theorem recommended_line : Line five "a.p".toList recommended
    [(.bool .dmt, .b true), (.bool .flatten, .b true), (.int .l, .i 5), (.bool .preinner, .b true)] :=
  Line.cons (a := [opt .dmt]) (.on (.inl rfl)) <| Line.cons (a := [opt .flatten]) (.on (.inl rfl)) <|
    Line.cons (a := ["--".toList ++ (Flag.int .l).name, "5".toList]) (.intNext (.inr rfl) (by simp [five])) <|
    Line.cons (a := [opt .preinner]) (.on (.inl rfl)) <| .nil (by decide +kernel)

/-- The hypotheses of `C100_effects_partial` are met, and the search is started: with rewriting, with limit 5. -/
example : ∃ r, start five recommended = .run r ∧ r.bound = some 5 ∧ r.rewriting = some (false, false) ∧ r.sko = .preinner ∧ r.eq = .bse ∧
    Heeded [(.bool .dmt, .b true), (.bool .flatten, .b true), (.int .l, .i 5), (.bool .preinner, .b true)] "a.p".toList (.run r) := by
  have h := C100_effects_partial _ _ _ _ recommended_line (by decide) (by unfold Allowed; decide) (by unfold Works; decide)
  rw [start_line recommended_line] at h ⊢
  refine ⟨_, rfl, ?_, ?_, ?_, ?_, h⟩ <;> decide +kernel

/-- The order does not matter. -/
example : start five [opt .preinner, opt .inner, "a.p".toList] = start five [opt .inner, opt .preinner, "a.p".toList] :=
  C100_order _ _ _ _ _ _ (line_opts five "a.p".toList (by decide +kernel) [.preinner, .inner]) (line_opts five "a.p".toList (by decide +kernel) [.inner, .preinner])
    (by decide) (List.Perm.swap _ _ _)

/-- `-no_id`, which is in USAGE.md, is not an option; options after the problem are not read, and the last one is taken for the problem. -/
example : start five ["-no_id".toList, "a.p".toList] = .error ∧
    (match start five ["a.p".toList, "-proof".toList] with
      | .run r => r.problem = "-proof".toList && r.outputs = []
      | _ => false) = true := by
  constructor <;> decide +kernel

end Verif.Options
