/-!
# C98: the file of the option `-exchanges` (`src/Search/exchanges.go`)

Every process of the search writes records to one file, from which the visualization tool makes a tree (`devtools/visualization/exchanges`, which adds the
closing bracket itself). The texts of formulas, metavariables and substitutions are given; calls are in the order in which they get the mutex. Processes of
a round that still run when the next one starts are not modelled.
-/

namespace Verif.Search.Exchanges

/-! ### The code -/

/-- A call of `WriteExchanges`: the process and its father, and the texts that `makeJsonExchanges` asks for. -/
structure Call where
  proc : Nat
  father : Nat
  lf : List Char
  atomic : List Char
  mm : List Char
  mc : List Char
  applied : Option (List Char)
  received : Option (List Char)
  sent : Option (List Char)
  fn : List Char

/-- `exchanges_struct` (src/Search/exchanges.go:56-66). -/
structure Record where
  name : Nat
  version : Nat
  father : Nat
  forms : List Char
  mm : List Char
  mc : List Char
  sent : List Char
  received : List Char
  fn : List Char
deriving DecidableEq

/-- `map_id_graph` and the file; `none`: there is no file (`os.Create` failed). -/
structure St where
  file : Option (List Char)
  vers : Nat → Option Nat

/-- `GetGID` (src/Glob/helper.go:116-127): the number of the goroutine only if some debugger is on. -/
def gid (debug : Bool) (id : Nat) : Nat := if debug then id else 0

/-- `makeJsonExchanges` (src/Search/exchanges.go:86-132). -/
def makeJson (debug : Bool) (vers : Nat → Option Nat) (c : Call) : Record × (Nat → Option Nat) :=
  let id := gid debug c.proc
  let forms := c.lf ++ [' ', ';', ' '] ++ c.atomic
  let sr := c.applied.getD [] ++ c.received.getD []
  let ss := c.sent.getD []
  match vers id with
  | some val => (⟨id, val, gid debug c.father, forms, c.mm, c.mc, ss, sr, c.fn⟩, fun i => if i = id then some (val + 1) else vers i)
  | none => (⟨id, 0, gid debug c.father, forms, c.mm, c.mc, ss, sr, c.fn⟩, fun i => if i = id then some 1 else vers i)

/-- A character in a JSON string as `encoding/json` of Go 1.21 writes it (library; newer versions have short forms for two more control characters). -/
def encChar (c : Char) : List Char :=
  if c = '"' then ['\\', '"'] else if c = '\\' then ['\\', '\\'] else if c = '\n' then ['\\', 'n'] else if c = '\r' then ['\\', 'r']
  else if c = '\t' then ['\\', 't']
  else if c.toNat < 32 ∨ c = '<' ∨ c = '>' ∨ c = '&' then ['\\', 'u', '0', '0', Nat.digitChar (c.toNat / 16), Nat.digitChar (c.toNat % 16)]
  else if c.toNat = 8232 ∨ c.toNat = 8233 then ['\\', 'u', '2', '0', '2', Nat.digitChar (c.toNat % 16)]
  else [c]

def encStr (s : List Char) : List Char := '"' :: s.flatMap encChar ++ ['"']

/-- The lines of an object, as `json.MarshalIndent` with indentation by one space writes them (library). -/
def fieldsText : List (List Char × List Char) → List Char
  | [] => []
  | [(k, t)] => '\n' :: ' ' :: '"' :: k ++ ['"', ':', ' '] ++ t
  | (k, t) :: fs => ('\n' :: ' ' :: '"' :: k ++ ['"', ':', ' '] ++ t) ++ ',' :: fieldsText fs

/-- The fields of a record, in the order of the declaration, with the names of the tags (src/Search/exchanges.go:57-65). -/
def Record.fields (r : Record) : List (List Char × List Char) :=
  [("Name".toList, Nat.toDigits 10 r.name), ("Version".toList, Nat.toDigits 10 r.version), ("Father".toList, Nat.toDigits 10 r.father),
   ("Forms".toList, encStr r.forms), ("MM".toList, encStr r.mm), ("MC".toList, encStr r.mc), ("Subst_sent".toList, encStr r.sent),
   ("Subst_received".toList, encStr r.received), ("Function".toList, encStr r.fn)]

/-- `json.MarshalIndent` on a record (src/Search/exchanges.go:147). -/
def Record.text (r : Record) : List Char := '{' :: fieldsText r.fields ++ ['\n', '}']

/-- `WriteExchanges` (src/Search/exchanges.go:134-151). `none`: the program crashes; `os.Stat` gives no information about a file that is not there, and it is
asked for the size all the same (139-140). -/
def write (debug : Bool) (s : St) (c : Call) : Option St :=
  match s.file with
  | none => none
  | some t =>
    let r := makeJson debug s.vers c
    some ⟨some ((if t.length ≠ 0 then t ++ [',', '\n'] else t ++ ['[', '\n']) ++ r.1.text), r.2⟩

/-- `ResetExchangesFile` (src/Search/exchanges.go:79-84): the file is emptied if its directory exists. The numbers of versions are kept. -/
def reset (dir : Bool) (s : St) : St := ⟨if dir then some [] else none, s.vers⟩

def writes (debug : Bool) : St → List Call → Option St
  | s, [] => some s
  | s, c :: cs => (write debug s c).bind fun s' => writes debug s' cs

/-- The rounds of the search (`doOneStep`, src/Search/destructive.go:98-123), each with its calls. -/
def run (debug dir : Bool) : St → List (List Call) → Option St
  | s, [] => some s
  | s, cs :: rs => (writes debug (reset dir s) cs).bind fun s' => run debug dir s' rs

def start : St := ⟨none, fun _ => none⟩

/-! ### Specification: JSON (RFC 8259), for the values that occur -/

inductive JV where
  | num (n : Nat)
  | str (s : List Char)
  | obj (ms : List (List Char × JV))
  | arr (vs : List JV)

def Ws (w : List Char) : Prop := ∀ c ∈ w, c = ' ' ∨ c = '\n' ∨ c = '\r' ∨ c = '\t'

def hexVal (c : Char) : Option Nat :=
  if '0' ≤ c ∧ c ≤ '9' then some (c.toNat - 48) else if 'a' ≤ c ∧ c ≤ 'f' then some (c.toNat - 87) else if 'A' ≤ c ∧ c ≤ 'F' then some (c.toNat - 55) else none

/-- The text between the quotes stands for the string. -/
inductive StrBody : List Char → List Char → Prop
  | nil : StrBody [] []
  | plain {c : Char} {t s : List Char} : c ≠ '"' → c ≠ '\\' → 32 ≤ c.toNat → StrBody t s → StrBody (c :: t) (c :: s)
  | esc {e c : Char} {t s : List Char} : (e, c) ∈ [('"', '"'), ('\\', '\\'), ('/', '/'), ('b', '\x08'), ('f', '\x0c'), ('n', '\n'), ('r', '\r'), ('t', '\t')] →
      StrBody t s → StrBody ('\\' :: e :: t) (c :: s)
  | code {h1 h2 h3 h4 c : Char} {n1 n2 n3 n4 : Nat} {t s : List Char} : hexVal h1 = some n1 → hexVal h2 = some n2 → hexVal h3 = some n3 → hexVal h4 = some n4 →
      c.toNat = ((n1 * 16 + n2) * 16 + n3) * 16 + n4 → StrBody t s → StrBody ('\\' :: 'u' :: h1 :: h2 :: h3 :: h4 :: t) (c :: s)

/-- Values separated by commas, at least one. -/
inductive Elems {β : Type} (R : List Char → β → Prop) : List Char → List β → Prop
  | one {w t w' : List Char} {v : β} : Ws w → R t v → Ws w' → Elems R (w ++ t ++ w') [v]
  | more {w t w' ts : List Char} {v : β} {vs : List β} : Ws w → R t v → Ws w' → Elems R ts vs → Elems R (w ++ t ++ w' ++ ',' :: ts) (v :: vs)

/-- A member of an object: name, colon, value. -/
inductive Member (R : List Char → JV → Prop) : List Char → List Char × JV → Prop
  | mk {k s w w' t : List Char} {v : JV} : StrBody k s → Ws w → Ws w' → R t v → Member R ('"' :: k ++ '"' :: w ++ ':' :: w' ++ t) (s, v)

/-- The text stands for the value. -/
inductive Den : List Char → JV → Prop
  | num {t : List Char} {n : Nat} : t ≠ [] → (∀ c ∈ t, c.isDigit = true) → (t.head? = some '0' → t = ['0']) → Nat.ofDigitChars 10 t 0 = n → Den t (.num n)
  | str {t s : List Char} : StrBody t s → Den ('"' :: t ++ ['"']) (.str s)
  | obj {t : List Char} {ms : List (List Char × JV)} : Elems (Member Den) t ms → Den ('{' :: t ++ ['}']) (.obj ms)
  | arr {t : List Char} {vs : List JV} : Elems Den t vs → Den ('[' :: t ++ [']']) (.arr vs)

/-- What a record should tell of a call, `k` being the number of records of the process before it. -/
def wantedOne (name father k : Nat) (c : Call) : JV :=
  .obj [("Name".toList, .num name), ("Version".toList, .num k), ("Father".toList, .num father), ("Forms".toList, .str (c.lf ++ " ; ".toList ++ c.atomic)),
    ("MM".toList, .str c.mm), ("MC".toList, .str c.mc), ("Subst_sent".toList, .str (c.sent.getD [])),
    ("Subst_received".toList, .str (c.applied.getD [] ++ c.received.getD [])), ("Function".toList, .str c.fn)]

/-- The records of the calls `cs` when `pre` came before, processes being shown as `f` says. -/
def wantedFrom (f : Nat → Nat) : List Call → List Call → List JV
  | _, [] => []
  | pre, c :: cs => wantedOne (f c.proc) (f c.father) (pre.countP fun d => f d.proc == f c.proc) c :: wantedFrom f (pre ++ [c]) cs

/-- The records of a round. -/
def wanted (cs : List Call) : List JV := wantedFrom id [] cs

/-- **C98, as a user would have it.** After each round the file, with its closing bracket, is a JSON array of one record per call of the round, in order; processes
are told apart by their names, and versions are counted from zero. -/
def C98_statement : Prop := ∀ (debug dir : Bool) (rs : List (List Call)) (cs : List Call), (∀ r ∈ rs, r ≠ []) → cs ≠ [] →
  ∃ s t, run debug dir start (rs ++ [cs]) = some s ∧ s.file = some t ∧ Den (t ++ [']']) (.arr (wanted cs))

/-! ### Proofs -/

theorem Ws.nil : Ws [] := by intro c hc; cases hc

theorem hex_digit : ∀ n, n < 16 → hexVal (Nat.digitChar n) = some n := by decide

theorem encChar_ok (c : Char) {t s : List Char} (h : StrBody t s) : StrBody (encChar c ++ t) (c :: s) := by
  unfold encChar
  split
  · rename_i e; subst e; exact .esc (by decide) h
  · rename_i h1
    split
    · rename_i e; subst e; exact .esc (by decide) h
    · rename_i h2
      split
      · rename_i e; subst e; exact .esc (by decide) h
      · split
        · rename_i e; subst e; exact .esc (by decide) h
        · split
          · rename_i e; subst e; exact .esc (by decide) h
          · split
            · rename_i hc
              have hlt : c.toNat < 256 := by
                rcases hc with hc | rfl | rfl | rfl
                · omega
                all_goals decide
              refine .code (n1 := 0) (n2 := 0) (by decide) (by decide) (hex_digit _ (by omega)) (hex_digit _ (by omega)) ?_ h
              omega
            · rename_i hc
              split
              · rename_i hc'
                refine .code (n1 := 2) (n2 := 0) (n3 := 2) (by decide) (by decide) (by decide) (hex_digit _ (by omega)) ?_ h
                omega
              · exact .plain h1 h2 (by omega) h

theorem encStr_body : ∀ s : List Char, StrBody (s.flatMap encChar) s
  | [] => .nil
  | c :: s => by rw [List.flatMap_cons]; exact encChar_ok c (encStr_body s)

theorem encStr_ok (s : List Char) : Den (encStr s) (.str s) := .str (encStr_body s)

theorem digits_head : ∀ n : Nat, 0 < n → (Nat.toDigits 10 n).head? ≠ some '0' := by
  intro n
  induction n using Nat.strongRecOn with
  | ind n ih =>
    intro hn
    by_cases h : n < 10
    · rw [Nat.toDigits_of_lt_base h]
      have : ∀ n, n < 10 → 0 < n → [Nat.digitChar n].head? ≠ some '0' := by decide
      exact this n h hn
    · rw [Nat.toDigits_of_base_le (by decide) (by omega)]
      have := ih (n / 10) (by omega) (by omega)
      obtain ⟨a, l, e⟩ := List.exists_cons_of_ne_nil (Nat.toDigits_ne_nil (n := n / 10) (b := 10))
      rw [e] at this ⊢
      simpa using this

theorem digits_ok (n : Nat) : Den (Nat.toDigits 10 n) (.num n) := by
  refine .num Nat.toDigits_ne_nil (fun c hc => Nat.isDigit_of_mem_toDigits (by decide) (by decide) hc) (fun h => ?_) Nat.ofDigitChars_ten_toDigits
  rcases Nat.eq_zero_or_pos n with rfl | hn
  · exact Nat.toDigits_zero 10
  · exact absurd h (digits_head n hn)

/-- Names without characters that need an escape. -/
def Simple (k : List Char) : Prop := ∀ c ∈ k, c ≠ '"' ∧ c ≠ '\\' ∧ 32 ≤ c.toNat

instance (k : List Char) : Decidable (Simple k) := inferInstanceAs (Decidable (∀ c ∈ k, _))

theorem Simple.body : ∀ {k : List Char}, Simple k → StrBody k k
  | [], _ => .nil
  | c :: k, h => .plain (h c (by simp)).1 (h c (by simp)).2.1 (h c (by simp)).2.2 (Simple.body fun d hd => h d (by simp [hd]))

/-- Fields with simple names and texts that stand for the values. -/
inductive FieldsOk : List (List Char × List Char) → List (List Char × JV) → Prop
  | nil : FieldsOk [] []
  | cons {k t : List Char} {v : JV} {fs : List (List Char × List Char)} {ms : List (List Char × JV)} : Simple k → Den t v → FieldsOk fs ms →
      FieldsOk ((k, t) :: fs) ((k, v) :: ms)

theorem ws_indent : Ws ['\n', ' '] := by simp [Ws]

theorem fieldsText_ok {fs : List (List Char × List Char)} {ms : List (List Char × JV)} (h : FieldsOk fs ms) (hne : fs ≠ []) :
    Elems (Member Den) (fieldsText fs ++ ['\n']) ms := by
  induction h with
  | nil => exact absurd rfl hne
  | @cons k t v fs ms hk hv h ih =>
    have hm : Member Den ('"' :: k ++ '"' :: [] ++ ':' :: [' '] ++ t) (k, v) := .mk hk.body Ws.nil (by simp [Ws]) hv
    cases fs with
    | nil =>
      cases h
      have := Elems.one ws_indent hm (w' := ['\n']) (by simp [Ws])
      simpa [fieldsText] using this
    | cons f fs =>
      have := Elems.more ws_indent hm (w' := []) Ws.nil (ih (by simp))
      simpa [fieldsText] using this

/-- The value of a record. -/
def Record.value (r : Record) : JV :=
  .obj [("Name".toList, .num r.name), ("Version".toList, .num r.version), ("Father".toList, .num r.father), ("Forms".toList, .str r.forms),
    ("MM".toList, .str r.mm), ("MC".toList, .str r.mc), ("Subst_sent".toList, .str r.sent), ("Subst_received".toList, .str r.received),
    ("Function".toList, .str r.fn)]

theorem Record.text_ok (r : Record) : Den r.text r.value := by
  have h : FieldsOk r.fields _ := .cons (by decide) (digits_ok r.name) (.cons (by decide) (digits_ok r.version) (.cons (by decide) (digits_ok r.father)
    (.cons (by decide) (encStr_ok r.forms) (.cons (by decide) (encStr_ok r.mm) (.cons (by decide) (encStr_ok r.mc) (.cons (by decide) (encStr_ok r.sent)
    (.cons (by decide) (encStr_ok r.received) (.cons (by decide) (encStr_ok r.fn) .nil))))))))
  have := Den.obj (fieldsText_ok h (by simp [Record.fields]))
  simpa [Record.text, Record.value] using this

theorem Elems.snoc {β : Type} {R : List Char → β → Prop} {t u : List Char} {vs : List β} {v : β} (h : Elems R t vs) (hu : R u v) :
    Elems R (t ++ ',' :: '\n' :: u) (vs ++ [v]) := by
  have hv : Elems R ('\n' :: u) [v] := by
    have := Elems.one (R := R) (w := ['\n']) (w' := []) (by simp [Ws]) hu Ws.nil
    simpa using this
  induction h with
  | one h1 h2 h3 => exact .more h1 h2 h3 hv
  | @more w t w' ts v' vs h1 h2 h3 _ ih =>
    have := Elems.more h1 h2 h3 ih
    simpa using this

/-- The numbers of versions say how many records each name has. -/
def Counts (f : Nat → Nat) (pre : List Call) (vers : Nat → Option Nat) : Prop :=
  ∀ i, (vers i).getD 0 = pre.countP fun d => f d.proc == i

theorem makeJson_ok {debug : Bool} {vers : Nat → Option Nat} {pre : List Call} (h : Counts (gid debug) pre vers) (c : Call) :
    (makeJson debug vers c).1.value = wantedOne (gid debug c.proc) (gid debug c.father) (pre.countP fun d => gid debug d.proc == gid debug c.proc) c ∧
    Counts (gid debug) (pre ++ [c]) (makeJson debug vers c).2 := by
  have h0 := h (gid debug c.proc)
  simp only [makeJson]
  cases hv : vers (gid debug c.proc) with
  | none =>
    rw [hv] at h0
    simp only
    refine ⟨by rw [← h0]; rfl, fun i => ?_⟩
    by_cases hi : i = gid debug c.proc
    · subst hi
      rw [List.countP_append, ← h0]
      simp
    · simp [hi, h i, Ne.symm hi]
  | some n =>
    rw [hv] at h0
    simp only
    refine ⟨by rw [← h0]; rfl, fun i => ?_⟩
    by_cases hi : i = gid debug c.proc
    · subst hi
      simpa using h0
    · simp [hi, h i, Ne.symm hi]

theorem writes_ok {debug : Bool} : ∀ (cs : List Call) (s : St) (pre : List Call) (t : List Char) (vs : List JV), s.file = some ('[' :: t) → Elems Den t vs →
    Counts (gid debug) pre s.vers → ∃ s' t', writes debug s cs = some s' ∧ s'.file = some ('[' :: t') ∧ Elems Den t' (vs ++ wantedFrom (gid debug) pre cs) ∧
      Counts (gid debug) (pre ++ cs) s'.vers
  | [], s, pre, t, vs, hf, ht, hc => ⟨s, t, rfl, hf, by simpa [wantedFrom] using ht, by simpa using hc⟩
  | c :: cs, s, pre, t, vs, hf, ht, hc => by
    obtain ⟨h1, h2⟩ := makeJson_ok hc c
    obtain ⟨s', t', e1, e2, e3, e4⟩ := writes_ok cs ⟨some ('[' :: (t ++ ',' :: '\n' :: (makeJson debug s.vers c).1.text)), (makeJson debug s.vers c).2⟩ (pre ++ [c])
      (t ++ ',' :: '\n' :: (makeJson debug s.vers c).1.text) (vs ++ [(makeJson debug s.vers c).1.value]) rfl (ht.snoc (Record.text_ok _)) h2
    refine ⟨s', t', ?_, e2, ?_, by simpa using e4⟩
    · simp only [writes, write, hf, Option.bind_some]
      rw [← e1]
      congr 2
      simp
    · rw [h1] at e3
      simpa [wantedFrom] using e3

theorem round_ok {debug : Bool} {cs : List Call} (hne : cs ≠ []) {s : St} {pre : List Call} (hc : Counts (gid debug) pre s.vers) :
    ∃ s' t, writes debug (reset true s) cs = some s' ∧ s'.file = some t ∧ Den (t ++ [']']) (.arr (wantedFrom (gid debug) pre cs)) ∧
      Counts (gid debug) (pre ++ cs) s'.vers := by
  cases cs with
  | nil => exact absurd rfl hne
  | cons c cs =>
    obtain ⟨h1, h2⟩ := makeJson_ok hc c
    have h0 : Elems Den ('\n' :: (makeJson debug s.vers c).1.text) [(makeJson debug s.vers c).1.value] := by
      have := Elems.one (R := Den) (w := ['\n']) (w' := []) (by simp [Ws]) (Record.text_ok (makeJson debug s.vers c).1) Ws.nil
      simpa using this
    obtain ⟨s', t', e1, e2, e3, e4⟩ := writes_ok cs ⟨some ('[' :: '\n' :: (makeJson debug s.vers c).1.text), (makeJson debug s.vers c).2⟩ (pre ++ [c]) _ _ rfl h0 h2
    refine ⟨s', '[' :: t', ?_, e2, ?_, by simpa using e4⟩
    · simp only [writes, write, reset, if_true, Option.bind_some]
      rw [← e1]
      congr 2
    · rw [h1] at e3
      have := Den.arr e3
      simpa [wantedFrom] using this

theorem run_ok {debug : Bool} {cs : List Call} (hne : cs ≠ []) : ∀ (rs : List (List Call)) (s : St) (pre : List Call), (∀ r ∈ rs, r ≠ []) →
    Counts (gid debug) pre s.vers → ∃ s' t, run debug true s (rs ++ [cs]) = some s' ∧ s'.file = some t ∧
      Den (t ++ [']']) (.arr (wantedFrom (gid debug) (pre ++ rs.flatten) cs))
  | [], s, pre, _, hc => by
    obtain ⟨s', t, e1, e2, e3, -⟩ := round_ok hne hc
    exact ⟨s', t, by simp [run, e1], e2, by simpa using e3⟩
  | r :: rs, s, pre, hr, hc => by
    obtain ⟨s1, t1, e1, e2, e3, e4⟩ := round_ok (hr r (by simp)) hc
    obtain ⟨s', t, f1, f2, f3⟩ := run_ok hne rs s1 (pre ++ r) (fun q hq => hr q (by simp [hq])) e4
    exact ⟨s', t, by simp [run, e1, f1], f2, by simpa using f3⟩

/-- **C98 for any number of rounds** (missing: what fails below). If the directory of the file exists: after a round the file, with its closing bracket, is a JSON array
with one record per call of the round, in order, whatever characters the texts have. The names are those of `GetGID`, and the versions count the records that the
name has had since the program was started. -/
theorem C98_file_partial (debug : Bool) (rs : List (List Call)) (cs : List Call) (hr : ∀ r ∈ rs, r ≠ []) (hne : cs ≠ []) :
    ∃ s t, run debug true start (rs ++ [cs]) = some s ∧ s.file = some t ∧ Den (t ++ [']']) (.arr (wantedFrom (gid debug) rs.flatten cs)) := by
  have := run_ok (debug := debug) hne rs start [] hr (by intro i; rfl)
  simpa using this

theorem gid_true : gid true = id := by funext i; rfl

/-- **C98 for the first round**, with a debugger on. -/
theorem C98_first_partial (cs : List Call) (hne : cs ≠ []) :
    ∃ s t, run true true start [cs] = some s ∧ s.file = some t ∧ Den (t ++ [']']) (.arr (wanted cs)) := by
  have := C98_file_partial true [] cs (by simp) hne
  rw [gid_true] at this
  exact this

/-- Two calls of different processes. -/
def call0 : Call := ⟨1, 1, "{p & \"q\"}".toList, "{}".toList, "{}".toList, "{}".toList, none, none, none, "Search".toList⟩
def call1 : Call := ⟨7, 1, "{p}".toList, "{}".toList, "{X}".toList, "{}".toList, some "(X, a)".toList, none, none, "WaitFather".toList⟩

/-- A file of two records. -/
example : (run true true start [[call0, call1]]).bind (·.file) = some
    ("[\n{\n \"Name\": 1,\n \"Version\": 0,\n \"Father\": 1,\n \"Forms\": \"{p \\u0026 \\\"q\\\"} ; {}\",\n \"MM\": \"{}\",\n \"MC\": \"{}\",\n \"Subst_sent\": \"\",\n \"Subst_received\": \"\",\n \"Function\": \"Search\"\n},\n" ++
      "{\n \"Name\": 7,\n \"Version\": 0,\n \"Father\": 1,\n \"Forms\": \"{p} ; {}\",\n \"MM\": \"{X}\",\n \"MC\": \"{}\",\n \"Subst_sent\": \"\",\n \"Subst_received\": \"(X, a)\",\n \"Function\": \"WaitFather\"\n}").toList := by decide +kernel

/-! ### Violations -/

/-- **The program crashes at the first record if the directory is not there.** The path leads from the executable to `../../visualization/json` (src/Search/exchanges.go:50);
in the repository the directory is `devtools/visualization/json`, and the executable is `src/_build/goeland`. -/
theorem C98_violated_crash (debug : Bool) (s : St) (c : Call) (cs : List Call) (rs : List (List Call)) : run debug false s ((c :: cs) :: rs) = none := by
  simp [run, writes, write, reset]

/-- **Without a debugger all processes have the name 0**: every record has the same name and the same father. -/
theorem C98_violated_names (c : Call) (vers : Nat → Option Nat) : (makeJson false vers c).1.name = 0 ∧ (makeJson false vers c).1.father = 0 := by
  simp only [makeJson]
  cases vers (gid false c.proc) <;> exact ⟨rfl, rfl⟩

/-- **Versions go on counting in later rounds**: the first record of the second round, written by the same process, has version 1. -/
theorem C98_violated_version : ((writes true (reset true start) [call0]).bind fun s => some (makeJson true (reset true s).vers call0).1.version) = some 1 := by
  decide +kernel

theorem C98_statement_false : ¬ C98_statement := fun h => by
  obtain ⟨s, t, h1, -, -⟩ := h true false [] [call0] (by simp) (by simp)
  rw [List.nil_append, C98_violated_crash] at h1
  cases h1

end Verif.Search.Exchanges
