/-!
# The processes of the search and their channels (`src/Search/destructive.go`, `children.go`, `child_management.go`)

Each node of the tableau being searched is a process (a goroutine, or a chain of goroutines handing over the same
channels). A process talks to its father over two unbuffered channels, `quit` (father to child) and `result` (both
directions), and to its children over theirs. The model keeps what the processes do on these channels; which substitutions are
sent and what is decided from them is left open (every possibility is a step).

A system is a tree of processes and a list of processes that have no father any more.
-/

namespace Verif.Search.Protocol

/-- What a process does after it has closed its children. -/
inductive Next where
  /-- `sendSubToFather` (src/Search/child_management.go:122-251, 317-321). -/
  | send (closed need : Bool)
  /-- `waitFather`, or the end, after an order (`manageQuitOrder`, src/Search/destructive.go:644-655, 477-482). -/
  | ordered (quit : Bool)
  /-- Backtracking on substitutions (src/Search/child_management.go:293-301, 308-315): children are told to wait, then get something
  new to try. -/
  | retry
  /-- No backtracking left (src/Search/child_management.go:281, 320-321): children are told to wait, then to quit. -/
  | giveUp
  /-- Backtracking on rewritten formulas (`manageBacktrackForDMT`, src/Search/child_management.go:326-356): children are told to
  wait, then a new child is made and `args.children` is overwritten. -/
  | dmt
deriving DecidableEq

/-- The place in the code a process is at. -/
inductive St where
  /-- `ProofSearch`, `applyRules` and so on (src/Search/destructive.go:264-404, 1231-1410). -/
  | work
  /-- The `select` of `sendSubToFather` (src/Search/children.go:227-244). -/
  | send (closed need : Bool)
  /-- `waitFather` (src/Search/destructive.go:503-641). -/
  | waitF
  /-- `selectChildren` (src/Search/destructive.go:707-871), or the `select` before it (src/Search/destructive.go:439-444). -/
  | collect
  /-- The `select` of `closeChildren(children, kill)` (src/Search/children.go:131-141). -/
  | close (kill : Bool) (k : Next)
  /-- `v.quit <- kill` in `closeChildren` (src/Search/children.go:142-143). -/
  | reply (kill : Bool) (k : Next)
  /-- `sendSubToChildren`, `sendForbiddenToChildren` (src/Search/children.go:159-189). -/
  | give
  | dead
  /-- The main goroutine in `manageResult` (src/Search/destructive.go:1412-1413): waiting for the result. -/
  | main
  /-- `c.getQuit() <- true` in `manageResult` (src/Search/destructive.go:1419-1420). -/
  | mainReply
  | mainDone
deriving DecidableEq

/-- A process with its children. The mark of a child is `true` while the loop the father is in still has to deal with it. -/
inductive Proc where
  | mk (s : St) (cs : List (Bool × Proc))

namespace Proc

def st : Proc → St
  | .mk s _ => s

end Proc

open Proc

/-- All children have still to be dealt with. -/
def all (cs : List (Bool × Proc)) : List (Bool × Proc) := cs.map fun c => (true, c.2)

/-- New processes. -/
def fresh (n : Nat) : List (Bool × Proc) := List.replicate n (true, .mk .work [])

/-- The process accepts the order `quit` of its father: at the `select`s of `ProofSearch`, `waitChildren`, `selectChildren`,
`sendSubToFather` and `waitFather`. Its own children are killed (src/Search/destructive.go:644-655, 480-482). -/
inductive Accepts (quit : Bool) : Proc → Proc → Prop where
  | work (cs) : Accepts quit (.mk .work cs) (.mk (.close true (.ordered quit)) (all cs))
  | send (a b cs) : Accepts quit (.mk (.send a b) cs) (.mk (.close true (.ordered quit)) (all cs))
  | waitF (cs) : Accepts quit (.mk .waitF cs) (.mk (.close true (.ordered quit)) (all cs))
  | collect (cs) : Accepts quit (.mk .collect cs) (.mk (.close true (.ordered quit)) (all cs))

/-- The process accepts a substitution of its father (src/Search/destructive.go:517-640): it sends it back if it is one of its
own, or starts a new search under it. -/
inductive Takes : Proc → Proc → Prop where
  | back (cs) : Takes (.mk .waitF cs) (.mk (.send true true) cs)
  | try (cs) : Takes (.mk .waitF cs) (.mk .collect (fresh 1))

/-- Steps inside a process tree; the list is the processes that lose their father. `dmt`: rewriting is switched on. -/
inductive Step (dmt : Bool) : Proc → Proc → List Proc → Prop where
  -- a rule, and the search goes on
  | rule (cs) : Step dmt (.mk .work cs) (.mk .work cs) []
  -- the search of the process ends (src/Search/destructive.go:1105, 1142, 1224, 1271)
  | leaf (cs a b) : Step dmt (.mk .work cs) (.mk (.send a b) cs) []
  -- a beta rule or a rewriting (src/Search/destructive.go:1309-1347, 1036-1042)
  | spawn (cs n) : Step dmt (.mk .work cs) (.mk .collect (fresh n)) []
  -- an answer of a child arrives (src/Search/destructive.go:707-871)
  | answer (pre post a b ks) : a = true →
      Step dmt (.mk .collect (pre ++ (true, .mk (.send a b) ks) :: post))
        (.mk .collect (pre ++ (if b then [(false, .mk .waitF ks)] else []) ++ post)) []
  -- the answer of an open child (src/Search/child_management.go:275-324)
  | opened (pre post a b ks k) : a = false → k = .retry ∨ k = .giveUp ∨ (dmt = true ∧ k = .dmt) →
      Step dmt (.mk .collect (pre ++ (true, .mk (.send a b) ks) :: post))
        (.mk (.close false k) (all (pre ++ (if b then [(false, .mk .waitF ks)] else []) ++ post))) []
  -- all have answered
  | closed (cs a b) : (∀ c ∈ cs, c.1 = false) → Step dmt (.mk .collect cs) (.mk (.close true (.send a b)) (all cs)) []
  | tryOn (cs) : (∀ c ∈ cs, c.1 = false) → Step dmt (.mk .collect cs) (.mk .give (all cs)) []
  -- sending substitutions to the children
  | gives (pre post c c') : (∀ d ∈ pre, d.1 = false) → Takes c c' →
      Step dmt (.mk .give (pre ++ (true, c) :: post)) (.mk .give (pre ++ (false, c') :: post)) []
  | given (cs) : (∀ c ∈ cs, c.1 = false) → Step dmt (.mk .give cs) (.mk .collect (all cs)) []
  -- closing the children
  | kill (pre post c c' k) : (∀ d ∈ pre, d.1 = false) → Accepts true c c' →
      Step dmt (.mk (.close true k) (pre ++ (true, c) :: post)) (.mk (.close true k) (pre ++ post)) [c']
  | hold (pre post c c' k) : (∀ d ∈ pre, d.1 = false) → Accepts false c c' →
      Step dmt (.mk (.close false k) (pre ++ (true, c) :: post)) (.mk (.close false k) (pre ++ (false, c') :: post)) []
  | consume (pre post a ks kill k) : (∀ d ∈ pre, d.1 = false) →
      Step dmt (.mk (.close kill k) (pre ++ (true, .mk (.send a false) ks) :: post)) (.mk (.close kill k) (pre ++ post)) []
  | consumeNeed (pre post a ks kill k) : (∀ d ∈ pre, d.1 = false) →
      Step dmt (.mk (.close kill k) (pre ++ (true, .mk (.send a true) ks) :: post))
        (.mk (.reply kill k) (pre ++ (true, .mk .waitF ks) :: post)) []
  | replyKill (pre post c c' k) : (∀ d ∈ pre, d.1 = false) → Accepts true c c' → c.st = .waitF →
      Step dmt (.mk (.reply true k) (pre ++ (true, c) :: post)) (.mk (.close true k) (pre ++ post)) [c']
  | replyHold (pre post c c' k) : (∀ d ∈ pre, d.1 = false) → Accepts false c c' → c.st = .waitF →
      Step dmt (.mk (.reply false k) (pre ++ (true, c) :: post)) (.mk (.close false k) (pre ++ (false, c') :: post)) []
  -- closing is finished
  | thenSend (cs kill a b) : (∀ c ∈ cs, c.1 = false) → Step dmt (.mk (.close kill (.send a b)) cs) (.mk (.send a b) cs) []
  | thenDie (cs kill) : (∀ c ∈ cs, c.1 = false) → Step dmt (.mk (.close kill (.ordered true)) cs) (.mk .dead cs) []
  | thenWait (cs kill) : (∀ c ∈ cs, c.1 = false) → Step dmt (.mk (.close kill (.ordered false)) cs) (.mk .waitF cs) []
  | thenRetry (cs kill) : (∀ c ∈ cs, c.1 = false) → Step dmt (.mk (.close kill .retry) cs) (.mk .give (all cs)) []
  | thenGiveUp (cs kill) : (∀ c ∈ cs, c.1 = false) →
      Step dmt (.mk (.close kill .giveUp) cs) (.mk (.close true (.send false true)) (all cs)) []
  | thenDmt (cs kill) : (∀ c ∈ cs, c.1 = false) →
      Step dmt (.mk (.close kill .dmt) cs) (.mk .collect (fresh 1)) (cs.map (·.2))
  -- the main goroutine
  | result (a ks) : Step dmt (.mk .main [(true, .mk (.send a false) ks)]) (.mk .mainDone []) []
  | resultNeed (a ks) : Step dmt (.mk .main [(true, .mk (.send a true) ks)]) (.mk .mainReply [(true, .mk .waitF ks)]) []
  | mainKill (c c') : Accepts true c c' → Step dmt (.mk .mainReply [(true, c)]) (.mk .mainDone []) [c']
  -- a step inside a child
  | child (s pre post b c c' o) : Step dmt c c' o →
      Step dmt (.mk s (pre ++ (b, c) :: post)) (.mk s (pre ++ (b, c') :: post)) o

/-- The whole system: the tree of the main goroutine, and the processes without father. -/
structure Sys where
  main : Proc
  orphans : List Proc

inductive SysStep (dmt : Bool) : Sys → Sys → Prop where
  | main (p p' o os) : Step dmt p p' o → SysStep dmt ⟨p, os⟩ ⟨p', os ++ o⟩
  | orphan (p pre c c' post o) : Step dmt c c' o → SysStep dmt ⟨p, pre ++ c :: post⟩ ⟨p, pre ++ c' :: post ++ o⟩

/-- The start (src/Search/destructive.go:98-154). -/
def start : Sys := ⟨.mk .main [(true, .mk .work [])], []⟩

inductive Reach (dmt : Bool) : Sys → Prop where
  | start : Reach dmt start
  | step (s s') : Reach dmt s → SysStep dmt s s' → Reach dmt s'

/-! ### Specification -/

/-- No step can happen in this process any more: not in itself, and (without a father) nobody sends it anything. -/
def Stuck (dmt : Bool) (p : Proc) : Prop := ∀ p' o, ¬ Step dmt p p' o

/-- C57 in full: in every reachable state, the search is at its end or can go on, and every process without father is at its
end or can go on. -/
def C57_statement (dmt : Bool) : Prop :=
  ∀ s, Reach dmt s → (s.main = .mk .mainDone [] ∨ ¬ Stuck dmt s.main) ∧ ∀ c ∈ s.orphans, c = .mk .dead [] ∨ ¬ Stuck dmt c

/-! ### The invariant -/

/-- Will give an answer to its father without hearing from it. -/
def Owing : St → Prop
  | .work | .send _ _ | .collect | .give => True
  | .close _ k | .reply _ k => ∀ q, k ≠ .ordered q
  | _ => False

/-- Will wait for its father without hearing from it. -/
def Waiting : St → Prop
  | .waitF => True
  | .close kill k | .reply kill k => kill = true ∧ k = .ordered false
  | _ => False

/-- Will end. -/
def Dying : St → Prop
  | .dead => True
  | .close kill k | .reply kill k => kill = true ∧ k = .ordered true
  | _ => False

/-- What the loop a process is in assumes about the children. -/
def Fits : St → Bool × Proc → Prop
  | .collect, (b, c) => if b then Owing c.st else Waiting c.st
  | .give, (b, c) => if b then Waiting c.st else Owing c.st
  | .close kill _, (b, c) => if b then Owing c.st ∨ Waiting c.st else kill = false ∧ Waiting c.st
  | .reply kill _, (b, c) => if b then Owing c.st ∨ Waiting c.st else kill = false ∧ Waiting c.st
  | .main, (b, c) => b = true ∧ Owing c.st
  | .mainReply, (b, c) => b = true ∧ c.st = .waitF
  | _, _ => False

/-- Which closing loops occur: rewritten formulas are backtracked on only with rewriting, and children are told to wait only
when backtracking. -/
def KillNext (dmt kill : Bool) (k : Next) : Prop :=
  (k = .dmt → dmt = true ∧ kill = false) ∧ (kill = false → k = .retry ∨ k = .giveUp ∨ k = .dmt)

/-- Conditions on a process alone. -/
def Shape (dmt : Bool) : St → List (Bool × Proc) → Prop
  | .close kill k, _ => KillNext dmt kill k
  | .reply kill k, cs => KillNext dmt kill k ∧
      ∃ pre c post, cs = pre ++ (true, c) :: post ∧ (∀ d ∈ pre, d.1 = false) ∧ c.st = .waitF
  | .main, cs => cs.length = 1
  | .mainReply, cs => cs.length = 1
  | _, _ => True

/-- Well-formed processes. -/
inductive WF (dmt : Bool) : Proc → Prop where
  | mk (s cs) : Shape dmt s cs → (∀ c ∈ cs, Fits s c) → (∀ c ∈ cs, WF dmt c.2) → WF dmt (.mk s cs)

variable {dmt : Bool}

/-! ### No deadlock -/

/-- Blocked until the father does something, or at the end. -/
def Blocked : St → Prop
  | .send _ _ | .waitF | .dead | .mainDone => True
  | _ => False

theorem split_marks (cs : List (Bool × Proc)) :
    (∀ c ∈ cs, c.1 = false) ∨ ∃ pre c post, cs = pre ++ (true, c) :: post ∧ ∀ d ∈ pre, d.1 = false := by
  induction cs with
  | nil => exact Or.inl (by simp)
  | cons x cs ih =>
    obtain ⟨b, c⟩ := x
    cases b with
    | true => exact Or.inr ⟨[], c, cs, rfl, by simp⟩
    | false =>
      rcases ih with h | ⟨pre, d, post, h1, h2⟩
      · refine Or.inl fun y hy => ?_
        rcases List.mem_cons.1 hy with rfl | hy
        · rfl
        · exact h y hy
      · refine Or.inr ⟨(false, c) :: pre, d, post, by rw [h1]; rfl, fun y hy => ?_⟩
        rcases List.mem_cons.1 hy with rfl | hy
        · rfl
        · exact h2 y hy

theorem accepts_send (q a b : Bool) (ks) : ∃ c', Accepts q (.mk (.send a b) ks) c' := ⟨_, .send a b ks⟩
theorem accepts_waitF (q : Bool) (ks) : ∃ c', Accepts q (.mk .waitF ks) c' := ⟨_, .waitF ks⟩

/-- **No deadlock.** A well-formed process that is not blocked on its father can make a step. -/
theorem progress (p : Proc) (h : WF dmt p) : (∃ p' o, Step dmt p p' o) ∨ Blocked p.st := by
  induction h with
  | mk s cs hshape hfits hwf ih =>
    -- a child that is not blocked lets the process make a step
    have sub : ∀ pre b c post, cs = pre ++ (b, c) :: post →
        (∃ p' o, Step dmt (.mk s cs) p' o) ∨ Blocked c.st := by
      intro pre b c post e
      rcases ih (b, c) (by rw [e]; simp) with ⟨c', o, hs⟩ | hb
      · exact Or.inl ⟨_, o, by rw [e]; exact .child s pre post b c c' o hs⟩
      · exact Or.inr hb
    have fit : ∀ pre b c post, cs = pre ++ (b, c) :: post → Fits s (b, c) := by
      intro pre b c post e
      exact hfits _ (by rw [e]; simp)
    cases s with
    | work => exact Or.inl ⟨_, _, .rule cs⟩
    | send a b => exact Or.inr trivial
    | waitF => exact Or.inr trivial
    | dead => exact Or.inr trivial
    | mainDone => exact Or.inr trivial
    | collect =>
      rcases split_marks cs with hm | ⟨pre, c, post, e, hpre⟩
      · exact Or.inl ⟨_, _, .closed cs true true hm⟩
      · rcases sub pre true c post e with h | h
        · exact Or.inl h
        · have hf := fit pre true c post e
          cases c with
          | mk t ks =>
            cases t <;> simp [Fits, Owing, Proc.st, Blocked] at hf h
            rename_i a b
            cases a with
            | true => exact Or.inl ⟨_, _, by rw [e]; exact .answer pre post true b ks rfl⟩
            | false => exact Or.inl ⟨_, _, by rw [e]; exact .opened pre post false b ks .retry rfl (Or.inl rfl)⟩
    | give =>
      rcases split_marks cs with hm | ⟨pre, c, post, e, hpre⟩
      · exact Or.inl ⟨_, _, .given cs hm⟩
      · rcases sub pre true c post e with h | h
        · exact Or.inl h
        · have hf := fit pre true c post e
          cases c with
          | mk t ks =>
            cases t <;> simp [Fits, Waiting, Proc.st, Blocked] at hf h
            exact Or.inl ⟨_, _, by rw [e]; exact .gives pre post _ _ hpre (.back ks)⟩
    | close kill k =>
      rcases split_marks cs with hm | ⟨pre, c, post, e, hpre⟩
      · cases k with
        | send a b => exact Or.inl ⟨_, _, .thenSend cs kill a b hm⟩
        | ordered q => cases q with
          | true => exact Or.inl ⟨_, _, .thenDie cs kill hm⟩
          | false => exact Or.inl ⟨_, _, .thenWait cs kill hm⟩
        | retry => exact Or.inl ⟨_, _, .thenRetry cs kill hm⟩
        | giveUp => exact Or.inl ⟨_, _, .thenGiveUp cs kill hm⟩
        | dmt => exact Or.inl ⟨_, _, .thenDmt cs kill hm⟩
      · rcases sub pre true c post e with h | h
        · exact Or.inl h
        · have hf := fit pre true c post e
          cases c with
          | mk t ks =>
            cases t <;> simp [Fits, Owing, Waiting, Proc.st, Blocked] at hf h
            · rename_i a b
              cases kill with
              | true => exact Or.inl ⟨_, _, by rw [e]; exact .kill pre post _ _ k hpre (.send a b ks)⟩
              | false => exact Or.inl ⟨_, _, by rw [e]; exact .hold pre post _ _ k hpre (.send a b ks)⟩
            · cases kill with
              | true => exact Or.inl ⟨_, _, by rw [e]; exact .kill pre post _ _ k hpre (.waitF ks)⟩
              | false => exact Or.inl ⟨_, _, by rw [e]; exact .hold pre post _ _ k hpre (.waitF ks)⟩
    | reply kill k =>
      obtain ⟨_, pre, c, post, e, hpre, hc⟩ := hshape
      cases c with
      | mk t ks =>
        simp only [Proc.st] at hc
        subst hc
        cases kill with
        | true => exact Or.inl ⟨_, _, by rw [e]; exact .replyKill pre post _ _ k hpre (.waitF ks) rfl⟩
        | false => exact Or.inl ⟨_, _, by rw [e]; exact .replyHold pre post _ _ k hpre (.waitF ks) rfl⟩
    | main =>
      obtain ⟨⟨b, c⟩, e⟩ := List.length_eq_one_iff.1 hshape
      rcases sub [] b c [] e with h | h
      · exact Or.inl h
      · have hf := fit [] b c [] e
        cases c with
        | mk t ks =>
          cases t <;> simp [Fits, Owing, Proc.st, Blocked] at hf h
          rename_i a n
          subst hf
          cases n with
          | true => exact Or.inl ⟨_, _, by rw [e]; exact .resultNeed a ks⟩
          | false => exact Or.inl ⟨_, _, by rw [e]; exact .result a ks⟩
    | mainReply =>
      obtain ⟨⟨b, c⟩, e⟩ := List.length_eq_one_iff.1 hshape
      have hf := fit [] b c [] e
      cases c with
      | mk t ks =>
        simp only [Fits, Proc.st] at hf
        obtain ⟨rfl, rfl⟩ := hf
        exact Or.inl ⟨_, _, by rw [e]; exact .mainKill _ _ (.waitF ks)⟩

/-! ### The invariant is kept -/

theorem wf_all {cs : List (Bool × Proc)} (h : ∀ c ∈ cs, WF dmt c.2) : ∀ c ∈ all cs, WF dmt c.2 := by
  intro c hc
  obtain ⟨d, hd, rfl⟩ := List.mem_map.1 hc
  exact h d hd

theorem wf_fresh (n : Nat) : ∀ c ∈ fresh n, WF dmt c.2 := by
  intro c hc
  rw [(List.mem_replicate.1 hc).2]
  exact .mk _ _ trivial (by simp) (by simp)

theorem fits_fresh (n : Nat) : ∀ c ∈ fresh n, Fits .collect c := by
  intro c hc
  rw [(List.mem_replicate.1 hc).2]
  trivial

theorem wf_work {cs : List (Bool × Proc)} {s : St} (hs : s = .work ∨ s = .waitF ∨ (∃ a b, s = .send a b))
    (h : WF dmt (.mk s cs)) : cs = [] := by
  cases h with
  | mk _ _ _ hf _ =>
    cases cs with
    | nil => rfl
    | cons c cs =>
      have := hf c (by simp)
      rcases hs with rfl | rfl | ⟨a, b, rfl⟩ <;> exact this.elim

theorem accepts_wf {q : Bool} {c c' : Proc} (h : Accepts q c c') (hw : WF dmt c) :
    WF dmt c' ∧ c'.st = .close true (.ordered q) := by
  have leaf : ∀ s cs, (s = .work ∨ s = .waitF ∨ (∃ a b, s = .send a b)) → WF dmt (.mk s cs) →
      WF dmt (.mk (.close true (.ordered q)) (all cs)) := by
    intro s cs hs hw
    rw [wf_work hs hw]
    exact .mk _ _ ⟨(fun h => by cases h), (fun h => by cases h)⟩ (by simp [all]) (by simp [all])
  cases h with
  | work cs => exact ⟨leaf _ _ (Or.inl rfl) hw, rfl⟩
  | send a b cs => exact ⟨leaf _ _ (Or.inr (Or.inr ⟨a, b, rfl⟩)) hw, rfl⟩
  | waitF cs => exact ⟨leaf _ _ (Or.inr (Or.inl rfl)) hw, rfl⟩
  | collect cs =>
    cases hw with
    | mk _ _ _ hf hc =>
      refine ⟨.mk _ _ ⟨(fun h => by cases h), (fun h => by cases h)⟩ (fun c hc' => ?_) (wf_all hc), rfl⟩
      obtain ⟨⟨b, d⟩, hd, rfl⟩ := List.mem_map.1 hc'
      have := hf _ hd
      cases b with
      | true => exact Or.inl this
      | false => exact Or.inr this

theorem takes_wf {c c' : Proc} (h : Takes c c') (hw : WF dmt c) : WF dmt c' ∧ Owing c'.st := by
  cases h with
  | back cs =>
    rw [wf_work (Or.inr (Or.inl rfl)) hw]
    exact ⟨.mk _ _ trivial (by simp) (by simp), trivial⟩
  | «try» cs => exact ⟨.mk _ _ trivial (fits_fresh 1) (wf_fresh 1), trivial⟩

/-- What a father may rely on about a child when the child makes a step on its own. -/
structure Kept (c c' : Proc) : Prop where
  owing : Owing c.st → Owing c'.st
  waiting : Waiting c.st → Waiting c'.st
  dying : Dying c.st → Dying c'.st
  waitF : c.st = .waitF → c'.st = .waitF

theorem fits_kept {s : St} {b : Bool} {c c' : Proc} (hk : Kept c c') (h : Fits s (b, c)) : Fits s (b, c') := by
  cases s <;> simp only [Fits] at h ⊢
  case close kill k =>
    cases b with
    | true => exact h.imp hk.owing hk.waiting
    | false => exact ⟨h.1, hk.waiting h.2⟩
  case reply kill k =>
    cases b with
    | true => exact h.imp hk.owing hk.waiting
    | false => exact ⟨h.1, hk.waiting h.2⟩
  case collect => cases b with
    | true => exact hk.owing h
    | false => exact hk.waiting h
  case give => cases b with
    | true => exact hk.waiting h
    | false => exact hk.owing h
  case main => exact ⟨h.1, hk.owing h.2⟩
  case mainReply => exact ⟨h.1, hk.waitF h.2⟩

theorem shape_kept {s : St} {b : Bool} {pre post : List (Bool × Proc)} {c c' : Proc} (hk : Kept c c')
    (h : Shape dmt s (pre ++ (b, c) :: post)) : Shape dmt s (pre ++ (b, c') :: post) := by
  cases s <;> simp only [Shape] at h ⊢
  case close kill k => exact h
  case main => simpa using h
  case mainReply => simpa using h
  case reply kill k =>
    refine ⟨h.1, ?_⟩
    obtain ⟨_, pre', d, post', e, hpre, hd⟩ := h
    -- the position of the changed child relative to the one replied to
    have key : ∀ (l1 l2 r1 r2 : List (Bool × Proc)) (x y : Bool × Proc), l1 ++ x :: r1 = l2 ++ y :: r2 →
        (∃ m, l2 = l1 ++ x :: m ∧ r1 = m ++ y :: r2) ∨ (l1 = l2 ∧ x = y ∧ r1 = r2) ∨
        (∃ m, l1 = l2 ++ y :: m ∧ r2 = m ++ x :: r1) := by
      intro l1
      induction l1 with
      | nil =>
        intro l2 r1 r2 x y e
        cases l2 with
        | nil => simp only [List.nil_append, List.cons.injEq] at e; exact Or.inr (Or.inl ⟨rfl, e⟩)
        | cons z l2 =>
          simp only [List.nil_append, List.cons_append, List.cons.injEq] at e
          exact Or.inl ⟨l2, by rw [e.1]; rfl, e.2⟩
      | cons w l1 ih =>
        intro l2 r1 r2 x y e
        cases l2 with
        | nil =>
          simp only [List.nil_append, List.cons_append, List.cons.injEq] at e
          exact Or.inr (Or.inr ⟨l1, by rw [e.1]; rfl, e.2.symm⟩)
        | cons z l2 =>
          simp only [List.cons_append, List.cons.injEq] at e
          rcases ih l2 r1 r2 x y e.2 with ⟨m, h1, h2⟩ | ⟨h1, h2, h3⟩ | ⟨m, h1, h2⟩
          · exact Or.inl ⟨m, by rw [h1, e.1]; rfl, h2⟩
          · exact Or.inr (Or.inl ⟨by rw [e.1, h1], h2, h3⟩)
          · exact Or.inr (Or.inr ⟨m, by rw [h1, e.1]; rfl, h2⟩)
    rcases key _ _ _ _ _ _ e with ⟨m, h1, h2⟩ | ⟨h1, h2, h3⟩ | ⟨m, h1, h2⟩
    · refine ⟨pre ++ (b, c') :: m, d, post', by rw [h2]; simp, fun x hx => ?_, hd⟩
      have hb : b = false := hpre (b, c) (by rw [h1]; simp)
      rcases List.mem_append.1 hx with hx | hx
      · exact hpre x (by rw [h1]; exact List.mem_append_left _ hx)
      · rcases List.mem_cons.1 hx with rfl | hx
        · exact hb
        · exact hpre x (by rw [h1]; simp [hx])
    · simp only [Prod.mk.injEq] at h2
      obtain ⟨rfl, rfl⟩ := h2
      exact ⟨pre, c', post, rfl, by rw [h1]; exact hpre, hk.waitF hd⟩
    · exact ⟨pre', d, m ++ (b, c') :: post, by rw [h1]; simp, hpre, hd⟩

theorem append_cons_forall {P : Bool × Proc → Prop} {pre post : List (Bool × Proc)} {x : Bool × Proc} :
    (∀ c ∈ pre ++ x :: post, P c) ↔ (∀ c ∈ pre, P c) ∧ P x ∧ ∀ c ∈ post, P c := by
  constructor
  · intro h
    exact ⟨fun c hc => h c (by simp [hc]), h x (by simp), fun c hc => h c (by simp [hc])⟩
  · rintro ⟨h1, h2, h3⟩ c hc
    rcases List.mem_append.1 hc with hc | hc
    · exact h1 c hc
    · rcases List.mem_cons.1 hc with rfl | hc
      · exact h2
      · exact h3 c hc

/-- Children that were all dealt with in a `close true` loop: there are none. -/
theorem close_true_nil {k : Next} {cs : List (Bool × Proc)} (hf : ∀ c ∈ cs, Fits (.close true k) c)
    (hm : ∀ c ∈ cs, c.1 = false) : cs = [] := by
  cases cs with
  | nil => rfl
  | cons c cs =>
    have h1 := hf c (by simp)
    have h2 := hm c (by simp)
    obtain ⟨b, c⟩ := c
    simp only at h2
    subst h2
    exact absurd h1.1 (by simp)

/-- What a step does, without rewriting: well-formed processes stay so, the father's view is kept, and processes that lose
their father are going to end. -/
theorem step_wf {p p' : Proc} {o : List Proc} (h : Step dmt p p' o) :
    WF dmt p → WF dmt p' ∧ Kept p p' ∧ ∀ c ∈ o, WF dmt c ∧ (Dying c.st ∨ dmt = true ∧ Waiting c.st) := by
  induction h with
  | rule cs => intro hw; exact ⟨hw, ⟨id, id, id, id⟩, by simp⟩
  | leaf cs a b =>
    intro hw
    rw [wf_work (Or.inl rfl) hw]
    exact ⟨.mk _ _ trivial (by simp) (by simp), ⟨fun _ => trivial, id, id, fun h => by cases h⟩, by simp⟩
  | spawn cs n =>
    intro hw
    exact ⟨.mk _ _ trivial (fits_fresh n) (wf_fresh n), ⟨fun _ => trivial, id, id, fun h => by cases h⟩, by simp⟩
  | answer pre post a b ks ha =>
    intro hw
    cases hw with
    | mk _ _ _ hf hc =>
      obtain ⟨f1, f2, f3⟩ := append_cons_forall.1 hf
      obtain ⟨w1, w2, w3⟩ := append_cons_forall.1 hc
      have hks : ks = [] := wf_work (Or.inr (Or.inr ⟨a, b, rfl⟩)) w2
      subst hks
      refine ⟨.mk _ _ trivial (fun c hc' => ?_) (fun c hc' => ?_), ⟨id, id, id, id⟩, by simp⟩
      · rcases List.mem_append.1 hc' with hc' | hc'
        · rcases List.mem_append.1 hc' with hc' | hc'
          · exact f1 c hc'
          · cases b with
            | true => simp only [if_true, List.mem_singleton] at hc'; subst hc'; trivial
            | false => simp at hc'
        · exact f3 c hc'
      · rcases List.mem_append.1 hc' with hc' | hc'
        · rcases List.mem_append.1 hc' with hc' | hc'
          · exact w1 c hc'
          · cases b with
            | true => simp only [if_true, List.mem_singleton] at hc'; subst hc'; exact .mk _ _ trivial (by simp) (by simp)
            | false => simp at hc'
        · exact w3 c hc'
  | opened pre post a b ks k ha hk =>
    intro hw
    cases hw with
    | mk _ _ _ hf hc =>
      obtain ⟨f1, f2, f3⟩ := append_cons_forall.1 hf
      obtain ⟨w1, w2, w3⟩ := append_cons_forall.1 hc
      have hks : ks = [] := wf_work (Or.inr (Or.inr ⟨a, b, rfl⟩)) w2
      subst hks
      have any : ∀ c : Bool × Proc, Fits .collect c → Fits (.close false k) (true, c.2) := by
        rintro ⟨b, c⟩ h
        cases b with
        | true => exact Or.inl h
        | false => exact Or.inr h
      refine ⟨.mk _ _ ?_ (fun c hc' => ?_) (wf_all fun c hc' => ?_), ⟨fun _ q => ?_, fun h => h.elim, fun h => h.elim,
        fun h => by cases h⟩, by simp⟩
      · refine ⟨fun h => ?_, fun _ => ?_⟩
        · rcases hk with h' | h' | ⟨h', _⟩
          · rw [h'] at h; cases h
          · rw [h'] at h; cases h
          · exact ⟨h', rfl⟩
        · rcases hk with h | h | ⟨_, h⟩
          · exact Or.inl h
          · exact Or.inr (Or.inl h)
          · exact Or.inr (Or.inr h)
      · obtain ⟨d, hd, rfl⟩ := List.mem_map.1 hc'
        rcases List.mem_append.1 hd with hd | hd
        · rcases List.mem_append.1 hd with hd | hd
          · exact any d (f1 d hd)
          · cases b with
            | true => simp only [if_true, List.mem_singleton] at hd; subst hd; exact Or.inr trivial
            | false => simp at hd
        · exact any d (f3 d hd)
      · rcases List.mem_append.1 hc' with hc' | hc'
        · rcases List.mem_append.1 hc' with hc' | hc'
          · exact w1 c hc'
          · cases b with
            | true => simp only [if_true, List.mem_singleton] at hc'; subst hc'; exact .mk _ _ trivial (by simp) (by simp)
            | false => simp at hc'
        · exact w3 c hc'
      · rcases hk with h | h | ⟨_, h⟩ <;> (rw [h]; simp)
  | closed cs a b hm =>
    intro hw
    cases hw with
    | mk _ _ _ hf hc =>
      refine ⟨.mk _ _ ⟨(fun h => by cases h), (fun h => by cases h)⟩ (fun c hc' => ?_) (wf_all hc),
        ⟨fun _ q => by simp, fun h => h.elim, fun h => h.elim, fun h => by cases h⟩, by simp⟩
      obtain ⟨⟨x, d⟩, hd, rfl⟩ := List.mem_map.1 hc'
      have h1 := hf _ hd
      have h2 := hm _ hd
      simp only at h2
      subst h2
      exact Or.inr h1
  | tryOn cs hm =>
    intro hw
    cases hw with
    | mk _ _ _ hf hc =>
      refine ⟨.mk _ _ trivial (fun c hc' => ?_) (wf_all hc),
        ⟨fun _ => trivial, fun h => h.elim, fun h => h.elim, fun h => by cases h⟩, by simp⟩
      obtain ⟨⟨x, d⟩, hd, rfl⟩ := List.mem_map.1 hc'
      have h1 := hf _ hd
      have h2 := hm _ hd
      simp only at h2
      subst h2
      exact h1
  | gives pre post c c' hpre ht =>
    intro hw
    cases hw with
    | mk _ _ _ hf hc =>
      obtain ⟨f1, f2, f3⟩ := append_cons_forall.1 hf
      obtain ⟨w1, w2, w3⟩ := append_cons_forall.1 hc
      obtain ⟨t1, t2⟩ := takes_wf ht w2
      exact ⟨.mk _ _ trivial (append_cons_forall.2 ⟨f1, t2, f3⟩) (append_cons_forall.2 ⟨w1, t1, w3⟩), ⟨id, id, id, id⟩, by simp⟩
  | given cs hm =>
    intro hw
    cases hw with
    | mk _ _ _ hf hc =>
      refine ⟨.mk _ _ trivial (fun c hc' => ?_) (wf_all hc),
        ⟨fun _ => trivial, fun h => h.elim, fun h => h.elim, fun h => by cases h⟩, by simp⟩
      obtain ⟨⟨x, d⟩, hd, rfl⟩ := List.mem_map.1 hc'
      have h1 := hf _ hd
      have h2 := hm _ hd
      simp only at h2
      subst h2
      exact h1
  | kill pre post c c' k hpre ha =>
    intro hw
    cases hw with
    | mk _ _ hs hf hc =>
      obtain ⟨f1, f2, f3⟩ := append_cons_forall.1 hf
      obtain ⟨w1, w2, w3⟩ := append_cons_forall.1 hc
      obtain ⟨t1, t2⟩ := accepts_wf ha w2
      refine ⟨.mk _ _ hs (fun x hx => ?_) (fun x hx => ?_), ⟨id, id, id, id⟩, fun x hx => ?_⟩
      · rcases List.mem_append.1 hx with hx | hx
        · exact f1 x hx
        · exact f3 x hx
      · rcases List.mem_append.1 hx with hx | hx
        · exact w1 x hx
        · exact w3 x hx
      · simp only [List.mem_singleton] at hx
        subst hx
        exact ⟨t1, Or.inl (by rw [t2]; exact ⟨rfl, rfl⟩)⟩
  | hold pre post c c' k hpre ha =>
    intro hw
    cases hw with
    | mk _ _ hs hf hc =>
      obtain ⟨f1, f2, f3⟩ := append_cons_forall.1 hf
      obtain ⟨w1, w2, w3⟩ := append_cons_forall.1 hc
      obtain ⟨t1, t2⟩ := accepts_wf ha w2
      exact ⟨.mk _ _ hs (append_cons_forall.2 ⟨f1, ⟨rfl, by rw [t2]; exact ⟨rfl, rfl⟩⟩, f3⟩)
        (append_cons_forall.2 ⟨w1, t1, w3⟩), ⟨id, id, id, id⟩, by simp⟩
  | consume pre post a ks kl k hpre =>
    intro hw
    cases hw with
    | mk _ _ hs hf hc =>
      obtain ⟨f1, f2, f3⟩ := append_cons_forall.1 hf
      obtain ⟨w1, w2, w3⟩ := append_cons_forall.1 hc
      refine ⟨.mk _ _ hs (fun x hx => ?_) (fun x hx => ?_), ⟨id, id, id, id⟩, by simp⟩
      · rcases List.mem_append.1 hx with hx | hx
        · exact f1 x hx
        · exact f3 x hx
      · rcases List.mem_append.1 hx with hx | hx
        · exact w1 x hx
        · exact w3 x hx
  | consumeNeed pre post a ks kl k hpre =>
    intro hw
    cases hw with
    | mk _ _ hs hf hc =>
      obtain ⟨f1, f2, f3⟩ := append_cons_forall.1 hf
      obtain ⟨w1, w2, w3⟩ := append_cons_forall.1 hc
      have hks : ks = [] := wf_work (Or.inr (Or.inr ⟨a, true, rfl⟩)) w2
      subst hks
      refine ⟨.mk _ _ ⟨hs, pre, _, post, rfl, hpre, rfl⟩ (append_cons_forall.2 ⟨f1, Or.inr trivial, f3⟩)
        (append_cons_forall.2 ⟨w1, .mk _ _ trivial (by simp) (by simp), w3⟩),
        ⟨fun h => h, fun h => h, fun h => h, fun h => by cases h⟩, by simp⟩
  | replyKill pre post c c' k hpre ha hcw =>
    intro hw
    cases hw with
    | mk _ _ hs hf hc =>
      obtain ⟨f1, f2, f3⟩ := append_cons_forall.1 hf
      obtain ⟨w1, w2, w3⟩ := append_cons_forall.1 hc
      obtain ⟨t1, t2⟩ := accepts_wf ha w2
      refine ⟨.mk _ _ hs.1 (fun x hx => ?_) (fun x hx => ?_),
        ⟨fun h => h, fun h => h, fun h => h, fun h => by cases h⟩, fun x hx => ?_⟩
      · rcases List.mem_append.1 hx with hx | hx
        · exact f1 x hx
        · exact f3 x hx
      · rcases List.mem_append.1 hx with hx | hx
        · exact w1 x hx
        · exact w3 x hx
      · simp only [List.mem_singleton] at hx
        subst hx
        exact ⟨t1, Or.inl (by rw [t2]; exact ⟨rfl, rfl⟩)⟩
  | replyHold pre post c c' k hpre ha hcw =>
    intro hw
    cases hw with
    | mk _ _ hs hf hc =>
      obtain ⟨f1, f2, f3⟩ := append_cons_forall.1 hf
      obtain ⟨w1, w2, w3⟩ := append_cons_forall.1 hc
      obtain ⟨t1, t2⟩ := accepts_wf ha w2
      exact ⟨.mk _ _ hs.1 (append_cons_forall.2 ⟨f1, ⟨rfl, by rw [t2]; exact ⟨rfl, rfl⟩⟩, f3⟩)
        (append_cons_forall.2 ⟨w1, t1, w3⟩), ⟨fun h => h, fun h => h, fun h => h, fun h => by cases h⟩, by simp⟩
  | thenSend cs kl a b hm =>
    intro hw
    cases hw with
    | mk _ _ hs hf hc =>
      cases kl with
      | false => rcases hs.2 rfl with h | h | h <;> cases h
      | true =>
        rw [close_true_nil hf hm]
        exact ⟨.mk _ _ trivial (by simp) (by simp), ⟨fun _ => trivial, fun h => (by cases h.2), fun h => (by cases h.2),
          fun h => by cases h⟩, by simp⟩
  | thenDie cs kl hm =>
    intro hw
    cases hw with
    | mk _ _ hs hf hc =>
      cases kl with
      | false => rcases hs.2 rfl with h | h | h <;> cases h
      | true =>
        rw [close_true_nil hf hm]
        exact ⟨.mk _ _ trivial (by simp) (by simp), ⟨fun h => absurd rfl (h true), fun h => (by cases h.2), fun _ => trivial,
          fun h => by cases h⟩, by simp⟩
  | thenWait cs kl hm =>
    intro hw
    cases hw with
    | mk _ _ hs hf hc =>
      cases kl with
      | false => rcases hs.2 rfl with h | h | h <;> cases h
      | true =>
        rw [close_true_nil hf hm]
        exact ⟨.mk _ _ trivial (by simp) (by simp), ⟨fun h => absurd rfl (h false), fun _ => trivial, fun h => (by cases h.2),
          fun h => by cases h⟩, by simp⟩
  | thenRetry cs kl hm =>
    intro hw
    cases hw with
    | mk _ _ hs hf hc =>
      refine ⟨.mk _ _ trivial (fun c hc' => ?_) (wf_all hc),
        ⟨fun _ => trivial, fun h => (by cases h.2), fun h => (by cases h.2), fun h => by cases h⟩, by simp⟩
      obtain ⟨⟨x, d⟩, hd, rfl⟩ := List.mem_map.1 hc'
      have h1 := hf _ hd
      have h2 := hm _ hd
      simp only at h2
      subst h2
      exact h1.2
  | thenGiveUp cs kl hm =>
    intro hw
    cases hw with
    | mk _ _ hs hf hc =>
      refine ⟨.mk _ _ ⟨(fun h => by cases h), (fun h => by cases h)⟩ (fun c hc' => ?_) (wf_all hc),
        ⟨fun _ q => by simp, fun h => (by cases h.2), fun h => (by cases h.2), fun h => by cases h⟩, by simp⟩
      obtain ⟨⟨x, d⟩, hd, rfl⟩ := List.mem_map.1 hc'
      have h1 := hf _ hd
      have h2 := hm _ hd
      simp only at h2
      subst h2
      exact Or.inr h1.2
  | thenDmt cs kl hm =>
    intro hw
    cases hw with
    | mk _ _ hs hf hc =>
      obtain ⟨hd, rfl⟩ := hs.1 rfl
      refine ⟨.mk _ _ trivial (fits_fresh 1) (wf_fresh 1),
        ⟨fun _ => trivial, fun h => (by cases h.2), fun h => (by cases h.2), fun h => by cases h⟩, fun c hc' => ?_⟩
      obtain ⟨⟨x, d⟩, hd', rfl⟩ := List.mem_map.1 hc'
      have h1 := hf _ hd'
      have h2 := hm _ hd'
      simp only at h2
      subst h2
      exact ⟨hc _ hd', Or.inr ⟨hd, h1.2⟩⟩
  | result a ks =>
    intro hw
    exact ⟨.mk _ _ trivial (by simp) (by simp), ⟨fun h => h.elim, fun h => h.elim, fun h => h.elim, fun h => by cases h⟩, by simp⟩
  | resultNeed a ks =>
    intro hw
    cases hw with
    | mk _ _ hs hf hc =>
      have w := hc _ (List.mem_singleton.2 rfl)
      have hks : ks = [] := wf_work (Or.inr (Or.inr ⟨a, true, rfl⟩)) w
      subst hks
      refine ⟨.mk _ _ rfl (fun c hc' => ?_) (fun c hc' => ?_),
        ⟨fun h => h.elim, fun h => h.elim, fun h => h.elim, fun h => by cases h⟩, by simp⟩
      · simp only [List.mem_singleton] at hc'; subst hc'; exact ⟨rfl, rfl⟩
      · simp only [List.mem_singleton] at hc'; subst hc'; exact .mk _ _ trivial (by simp) (by simp)
  | mainKill c c' ha =>
    intro hw
    cases hw with
    | mk _ _ hs hf hc =>
      obtain ⟨t1, t2⟩ := accepts_wf ha (hc _ (List.mem_singleton.2 rfl))
      refine ⟨.mk _ _ trivial (by simp) (by simp), ⟨fun h => h.elim, fun h => h.elim, fun h => h.elim, fun h => by cases h⟩,
        fun x hx => ?_⟩
      simp only [List.mem_singleton] at hx
      subst hx
      exact ⟨t1, Or.inl (by rw [t2]; exact ⟨rfl, rfl⟩)⟩
  | child s pre post b c c' o hst ih =>
    intro hw
    cases hw with
    | mk _ _ hs hf hc =>
      obtain ⟨f1, f2, f3⟩ := append_cons_forall.1 hf
      obtain ⟨w1, w2, w3⟩ := append_cons_forall.1 hc
      obtain ⟨i1, i2, i3⟩ := ih w2
      exact ⟨.mk _ _ (shape_kept i2 hs) (append_cons_forall.2 ⟨f1, fits_kept i2 f2, f3⟩) (append_cons_forall.2 ⟨w1, i1, w3⟩),
        ⟨id, id, id, id⟩, i3⟩

/-- The invariant of the system. -/
structure Inv (dmt : Bool) (s : Sys) : Prop where
  main : WF dmt s.main
  kind : s.main.st = .main ∨ s.main.st = .mainReply ∨ s.main.st = .mainDone
  orphans : ∀ c ∈ s.orphans, WF dmt c ∧ (Dying c.st ∨ dmt = true ∧ Waiting c.st)

theorem kind_kept {p p' : Proc} {o : List Proc} (h : Step dmt p p' o)
    (hk : p.st = .main ∨ p.st = .mainReply ∨ p.st = .mainDone) :
    p'.st = .main ∨ p'.st = .mainReply ∨ p'.st = .mainDone := by
  cases h <;> simp_all [Proc.st]

theorem inv_reach {s : Sys} (h : Reach dmt s) : Inv dmt s := by
  induction h with
  | start =>
    refine ⟨.mk _ _ rfl (fun c hc => ?_) (fun c hc => ?_), Or.inl rfl, by simp [start]⟩
    · simp only [List.mem_singleton] at hc; subst hc; exact ⟨rfl, trivial⟩
    · simp only [List.mem_singleton] at hc; subst hc; exact .mk _ _ trivial (by simp) (by simp)
  | step s s' hr hs ih =>
    cases hs with
    | main p p' o os hst =>
      obtain ⟨h1, h2, h3⟩ := step_wf hst ih.main
      refine ⟨h1, kind_kept hst ih.kind, fun c hc => ?_⟩
      rcases List.mem_append.1 hc with hc | hc
      · exact ih.orphans c hc
      · exact h3 c hc
    | orphan p pre c c' post o hst =>
      obtain ⟨w, d⟩ := ih.orphans c (by simp)
      obtain ⟨h1, h2, h3⟩ := step_wf hst w
      refine ⟨ih.main, ih.kind, fun x hx => ?_⟩
      rcases List.mem_append.1 hx with hx | hx
      · rcases List.mem_append.1 hx with hx | hx
        · exact ih.orphans x (by simp [hx])
        · rcases List.mem_cons.1 hx with rfl | hx
          · exact ⟨h1, d.imp h2.dying (fun e => ⟨e.1, h2.waiting e.2⟩)⟩
          · exact ih.orphans x (by simp [hx])
      · exact h3 x hx

theorem wf_no_children {s : St} {cs : List (Bool × Proc)} (h : WF dmt (.mk s cs)) (hn : ∀ c, ¬ Fits s c) : cs = [] := by
  cases h with
  | mk _ _ _ hf _ =>
    cases cs with
    | nil => rfl
    | cons c cs => exact absurd (hf c (by simp)) (hn c)

/-- **C57, no deadlock**, with and without rewriting: as long as the main goroutine has no result, some process of its tree
can make a step, whatever the order of events was. -/
theorem C57_main_never_stuck (dmt : Bool) (s : Sys) (h : Reach dmt s) : s.main = .mk .mainDone [] ∨ ¬ Stuck dmt s.main := by
  have inv := inv_reach h
  rcases progress s.main inv.main with ⟨p', o, hs⟩ | hb
  · exact Or.inr fun hst => hst p' o hs
  · left
    have hk := inv.kind
    have hw := inv.main
    cases hm : s.main with
    | mk t cs =>
      rw [hm] at hk hb hw
      simp only [Proc.st] at hk hb
      rcases hk with rfl | rfl | rfl
      · exact hb.elim
      · exact hb.elim
      · rw [wf_no_children hw (fun c => id)]

/-- **C57 without rewriting**: the full statement. No process is left behind waiting for a father that forgot it. -/
theorem C57_no_process_left : C57_statement false := by
  intro s h
  refine ⟨C57_main_never_stuck false s h, fun c hc => ?_⟩
  obtain ⟨w, d⟩ := (inv_reach h).orphans c hc
  rcases d with d | ⟨d, _⟩
  · rcases progress c w with ⟨p', o, hs⟩ | hb
    · exact Or.inr fun hst => hst p' o hs
    · left
      cases c with
      | mk t cs =>
        cases t <;> simp [Proc.st, Dying, Blocked] at d hb
        rw [wf_no_children w (fun c => id)]
  · cases d

/-- A process that waits for a father is stuck when there is none. -/
theorem waitF_stuck (dmt : Bool) : Stuck dmt (.mk .waitF []) := by
  intro p' o h
  generalize hp : Proc.mk .waitF [] = p at h
  cases h <;> simp at hp

/-- With rewriting: a node rewrites an atom in one of two ways; the search under the first one branches, a branch stays
open, nothing is left to try, and the child reports that and waits for orders. The node backtracks to the second
rewriting. The child is told to wait and then forgotten. -/
def leaked : Sys := ⟨.mk .main [(true, .mk .collect (fresh 1))], [.mk .waitF []]⟩

theorem reach_leaked : Reach true leaked := by
  -- states from the start on
  have r0 : Reach true start := .start
  -- the root rewrites
  have r1 : Reach true ⟨.mk .main [(true, .mk .collect [(true, .mk .work [])])], []⟩ :=
    .step _ _ r0 (.main _ _ [] [] (.child .main [] [] true _ _ [] (.spawn [] 1)))
  -- its child branches
  have r2 : Reach true ⟨.mk .main [(true, .mk .collect [(true, .mk .collect [(true, .mk .work [])])])], []⟩ :=
    .step _ _ r1 (.main _ _ [] [] (.child .main [] [] true _ _ [] (.child .collect [] [] true _ _ [] (.spawn [] 1))))
  -- the branch stays open
  have r3 : Reach true ⟨.mk .main [(true, .mk .collect [(true, .mk .collect [(true, .mk (.send false false) [])])])], []⟩ :=
    .step _ _ r2 (.main _ _ [] [] (.child .main [] [] true _ _ [] (.child .collect [] [] true _ _ []
      (.child .collect [] [] true _ _ [] (.leaf [] false false)))))
  have r4 : Reach true ⟨.mk .main [(true, .mk .collect [(true, .mk (.close false .giveUp) [])])], []⟩ :=
    .step _ _ r3 (.main _ _ [] [] (.child .main [] [] true _ _ [] (.child .collect [] [] true _ _ []
      (.opened [] [] false false [] .giveUp rfl (Or.inr (Or.inl rfl))))))
  have r5 : Reach true ⟨.mk .main [(true, .mk .collect [(true, .mk (.close true (.send false true)) [])])], []⟩ :=
    .step _ _ r4 (.main _ _ [] [] (.child .main [] [] true _ _ [] (.child .collect [] [] true _ _ []
      (.thenGiveUp [] false (by simp)))))
  have r6 : Reach true ⟨.mk .main [(true, .mk .collect [(true, .mk (.send false true) [])])], []⟩ :=
    .step _ _ r5 (.main _ _ [] [] (.child .main [] [] true _ _ [] (.child .collect [] [] true _ _ []
      (.thenSend [] true false true (by simp)))))
  -- the node hears that its child is open, and closes its children to try the other rewriting
  have r7 : Reach true ⟨.mk .main [(true, .mk (.close false .dmt) [(true, .mk .waitF [])])], []⟩ :=
    .step _ _ r6 (.main _ _ [] [] (.child .main [] [] true _ _ []
      (.opened [] [] false true [] .dmt rfl (Or.inr (Or.inr ⟨rfl, rfl⟩)))))
  have r8 : Reach true ⟨.mk .main [(true, .mk (.close false .dmt) [(false, .mk (.close true (.ordered false)) [])])], []⟩ :=
    .step _ _ r7 (.main _ _ [] [] (.child .main [] [] true _ _ [] (.hold [] [] _ _ .dmt (by simp) (.waitF []))))
  have r9 : Reach true ⟨.mk .main [(true, .mk (.close false .dmt) [(false, .mk .waitF [])])], []⟩ :=
    .step _ _ r8 (.main _ _ [] [] (.child .main [] [] true _ _ [] (.child (.close false .dmt) [] [] false _ _ []
      (.thenWait [] true (by simp)))))
  exact .step _ _ r9 (.main _ _ [.mk .waitF []] [] (.child .main [] [] true _ _ _ (.thenDmt _ false (by simp))))

/-- **C57 violated with rewriting**: a process waits forever for a father that has forgotten it. -/
theorem C57_violated_rewriting : ¬ C57_statement true := by
  intro h
  rcases (h leaked reach_leaked).2 (.mk .waitF []) (by simp [leaked]) with h | h
  · cases h
  · exact h (waitF_stuck true)

/-- Once forgotten, always forgotten: the process is still there in every later state. -/
theorem C57_leak_for_ever (dmt : Bool) (s s' : Sys) (hs : SysStep dmt s s') (h : Proc.mk .waitF [] ∈ s.orphans) :
    Proc.mk .waitF [] ∈ s'.orphans := by
  cases hs with
  | main p p' o os hst => exact List.mem_append_left _ h
  | orphan p pre c c' post o hst =>
    simp only [List.mem_append, List.mem_cons] at h ⊢
    rcases h with h | h | h
    · exact Or.inl (Or.inl h)
    · exact absurd (h ▸ hst) (waitF_stuck dmt _ _)
    · exact Or.inl (Or.inr (Or.inr h))

end Verif.Search.Protocol
