import Verif.Whole.Options
/-!
# C100: the settings, one by one

For each variable, its value after all functions of the options were called. Only the options that set it matter, and the last one in the order of declaration wins.
-/

namespace Verif.Options

/-- The outputs in the order of their options. -/
def outsOf (proof rocq tptp sc lp : Bool) : List Fmt :=
  (if proof then [.text] else []) ++ (if rocq then [.rocq] else []) ++ (if tptp then [.tptp] else []) ++ (if sc then [.tptp] else []) ++ (if lp then [.lambdapi] else [])

theorem on_silent (x : Bool) (f : Settings → Settings) (s : Settings) : (on x f s).silent = if x then (f s).silent else s.silent := by
  unfold on; split <;> rfl

theorem on_quiet (x : Bool) (f : Settings → Settings) (s : Settings) : (on x f s).quiet = if x then (f s).quiet else s.quiet := by
  unfold on; split <;> rfl

theorem on_trace (x : Bool) (f : Settings → Settings) (s : Settings) : (on x f s).trace = if x then (f s).trace else s.trace := by
  unfold on; split <;> rfl

theorem on_logName (x : Bool) (f : Settings → Settings) (s : Settings) : (on x f s).logName = if x then (f s).logName else s.logName := by
  unfold on; split <;> rfl

theorem on_logTo (x : Bool) (f : Settings → Settings) (s : Settings) : (on x f s).logTo = if x then (f s).logTo else s.logTo := by
  unfold on; split <;> rfl

theorem on_version (x : Bool) (f : Settings → Settings) (s : Settings) : (on x f s).version = if x then (f s).version else s.version := by
  unfold on; split <;> rfl

theorem on_listDbg (x : Bool) (f : Settings → Settings) (s : Settings) : (on x f s).listDbg = if x then (f s).listDbg else s.listDbg := by
  unfold on; split <;> rfl

theorem on_cpu (x : Bool) (f : Settings → Settings) (s : Settings) : (on x f s).cpu = if x then (f s).cpu else s.cpu := by
  unfold on; split <;> rfl

theorem on_mem (x : Bool) (f : Settings → Settings) (s : Settings) : (on x f s).mem = if x then (f s).mem else s.mem := by
  unfold on; split <;> rfl

theorem on_algo (x : Bool) (f : Settings → Settings) (s : Settings) : (on x f s).algo = if x then (f s).algo else s.algo := by
  unfold on; split <;> rfl

theorem on_assisted (x : Bool) (f : Settings → Settings) (s : Settings) : (on x f s).assisted = if x then (f s).assisted else s.assisted := by
  unfold on; split <;> rfl

theorem on_limit (x : Bool) (f : Settings → Settings) (s : Settings) : (on x f s).limit = if x then (f s).limit else s.limit := by
  unfold on; split <;> rfl

theorem on_oneStep (x : Bool) (f : Settings → Settings) (s : Settings) : (on x f s).oneStep = if x then (f s).oneStep else s.oneStep := by
  unfold on; split <;> rfl

theorem on_exchanges (x : Bool) (f : Settings → Settings) (s : Settings) : (on x f s).exchanges = if x then (f s).exchanges else s.exchanges := by
  unfold on; split <;> rfl

theorem on_proof (x : Bool) (f : Settings → Settings) (s : Settings) : (on x f s).proof = if x then (f s).proof else s.proof := by
  unfold on; split <;> rfl

theorem on_outs (x : Bool) (f : Settings → Settings) (s : Settings) : (on x f s).outs = if x then (f s).outs else s.outs := by
  unfold on; split <;> rfl

theorem on_sc (x : Bool) (f : Settings → Settings) (s : Settings) : (on x f s).sc = if x then (f s).sc else s.sc := by
  unfold on; split <;> rfl

theorem on_printer (x : Bool) (f : Settings → Settings) (s : Settings) : (on x f s).printer = if x then (f s).printer else s.printer := by
  unfold on; split <;> rfl

theorem on_dmt (x : Bool) (f : Settings → Settings) (s : Settings) : (on x f s).dmt = if x then (f s).dmt else s.dmt := by
  unfold on; split <;> rfl

theorem on_dmtMode (x : Bool) (f : Settings → Settings) (s : Settings) : (on x f s).dmtMode = if x then (f s).dmtMode else s.dmtMode := by
  unfold on; split <;> rfl

theorem on_tryEq (x : Bool) (f : Settings → Settings) (s : Settings) : (on x f s).tryEq = if x then (f s).tryEq else s.tryEq := by
  unfold on; split <;> rfl

theorem on_eqStruct (x : Bool) (f : Settings → Settings) (s : Settings) : (on x f s).eqStruct = if x then (f s).eqStruct else s.eqStruct := by
  unfold on; split <;> rfl

theorem on_dmtFirst (x : Bool) (f : Settings → Settings) (s : Settings) : (on x f s).dmtFirst = if x then (f s).dmtFirst else s.dmtFirst := by
  unfold on; split <;> rfl

theorem on_cores (x : Bool) (f : Settings → Settings) (s : Settings) : (on x f s).cores = if x then (f s).cores else s.cores := by
  unfold on; split <;> rfl

theorem on_complete (x : Bool) (f : Settings → Settings) (s : Settings) : (on x f s).complete = if x then (f s).complete else s.complete := by
  unfold on; split <;> rfl

theorem on_context (x : Bool) (f : Settings → Settings) (s : Settings) : (on x f s).context = if x then (f s).context else s.context := by
  unfold on; split <;> rfl

theorem on_sko (x : Bool) (f : Settings → Settings) (s : Settings) : (on x f s).sko = if x then (f s).sko else s.sko := by
  unfold on; split <;> rfl

theorem on_eagerEq (x : Bool) (f : Settings → Settings) (s : Settings) : (on x f s).eagerEq = if x then (f s).eagerEq else s.eagerEq := by
  unfold on; split <;> rfl

theorem on_incrEq (x : Bool) (f : Settings → Settings) (s : Settings) : (on x f s).incrEq = if x then (f s).incrEq else s.incrEq := by
  unfold on; split <;> rfl

theorem on_chrono (x : Bool) (f : Settings → Settings) (s : Settings) : (on x f s).chrono = if x then (f s).chrono else s.chrono := by
  unfold on; split <;> rfl

theorem on_proofFile (x : Bool) (f : Settings → Settings) (s : Settings) : (on x f s).proofFile = if x then (f s).proofFile else s.proofFile := by
  unfold on; split <;> rfl

theorem on_flatten (x : Bool) (f : Settings → Settings) (s : Settings) : (on x f s).flatten = if x then (f s).flatten else s.flatten := by
  unfold on; split <;> rfl

theorem on_typeCheck (x : Bool) (f : Settings → Settings) (s : Settings) : (on x f s).typeCheck = if x then (f s).typeCheck else s.typeCheck := by
  unfold on; split <;> rfl

theorem settings_silent (v : Vals) : (settings v).silent = (v.b .silent) := by
  simp only [settings, steps, List.foldl, on_silent, ite_self]
  cases v.b .silent <;> rfl

theorem settings_quiet (v : Vals) : (settings v).quiet = (v.b .quiet) := by
  simp only [settings, steps, List.foldl, on_quiet, ite_self]
  cases v.b .quiet <;> rfl

theorem settings_trace (v : Vals) : (settings v).trace = (v.b .show_trace) := by
  simp only [settings, steps, List.foldl, on_trace, ite_self]
  cases v.b .show_trace <;> rfl

theorem settings_logName (v : Vals) : (settings v).logName = (v.s .log) := by
  simp only [settings, steps, List.foldl, on_logName, ite_self]

theorem settings_logTo (v : Vals) : (settings v).logTo = (if v.b .wlogs then some (v.s .log) else none) := by
  simp only [settings, steps, List.foldl, on_logTo, on_logName, ite_self]

theorem settings_version (v : Vals) : (settings v).version = (v.b .version) := by
  simp only [settings, steps, List.foldl, on_version, ite_self]
  cases v.b .version <;> rfl

theorem settings_listDbg (v : Vals) : (settings v).listDbg = (v.b .list_debuggers) := by
  simp only [settings, steps, List.foldl, on_listDbg, ite_self]
  cases v.b .list_debuggers <;> rfl

theorem settings_cpu (v : Vals) : (settings v).cpu = (v.s .cpuprofile) := by
  simp only [settings, steps, List.foldl, on_cpu, ite_self]

theorem settings_mem (v : Vals) : (settings v).mem = (v.s .memprofile) := by
  simp only [settings, steps, List.foldl, on_mem, ite_self]

theorem settings_algo (v : Vals) : (settings v).algo = (if v.b .incr then .incremental else .main (v.b .assisted)) := by
  simp only [settings, steps, List.foldl, on_algo, ite_self]
  cases v.b .assisted <;> cases v.b .incr <;> rfl

theorem settings_assisted (v : Vals) : (settings v).assisted = (v.b .assisted) := by
  simp only [settings, steps, List.foldl, on_assisted, ite_self]
  cases v.b .assisted <;> rfl

theorem settings_limit (v : Vals) : (settings v).limit = (if v.b .vec then maxInt else v.i .l) := by
  simp only [settings, steps, List.foldl, on_limit, ite_self]
  by_cases h : v.i .l = -1 <;> cases v.b .vec <;> simp [h]

theorem settings_oneStep (v : Vals) : (settings v).oneStep = (v.b .one_step) := by
  simp only [settings, steps, List.foldl, on_oneStep, ite_self]
  cases v.b .one_step <;> rfl

theorem settings_exchanges (v : Vals) : (settings v).exchanges = (v.b .exchanges) := by
  simp only [settings, steps, List.foldl, on_exchanges, ite_self]
  cases v.b .exchanges <;> rfl

theorem settings_proof (v : Vals) : (settings v).proof = (v.b .proof || v.b .orocq || v.b .otptp || v.b .osctptp || v.b .olp) := by
  simp only [settings, steps, List.foldl, on_proof, ite_self]
  cases v.b .olp <;> cases v.b .orocq <;> cases v.b .osctptp <;> cases v.b .otptp <;> cases v.b .proof <;> rfl

theorem settings_outs (v : Vals) : (settings v).outs = (outsOf (v.b .proof) (v.b .orocq) (v.b .otptp) (v.b .osctptp) (v.b .olp)) := by
  simp only [settings, steps, List.foldl, on_outs, ite_self]
  cases v.b .olp <;> cases v.b .orocq <;> cases v.b .osctptp <;> cases v.b .otptp <;> cases v.b .proof <;> rfl

theorem settings_sc (v : Vals) : (settings v).sc = (v.b .osctptp) := by
  simp only [settings, steps, List.foldl, on_sc, ite_self]
  cases v.b .osctptp <;> rfl

theorem settings_printer (v : Vals) : (settings v).printer = (⟨false, v.b .pretty, v.b .print_id, v.b .quoted_pred⟩) := by
  simp only [settings, steps, List.foldl, on_printer, ite_self]
  cases v.b .pretty <;> cases v.b .print_id <;> cases v.b .quoted_pred <;> rfl

theorem settings_dmt (v : Vals) : (settings v).dmt = (v.b .dmt) := by
  simp only [settings, steps, List.foldl, on_dmt, ite_self]

theorem settings_dmtMode (v : Vals) : (settings v).dmtMode = ((v.b .dmt && v.b .polarized, v.b .dmt && v.b .presko)) := by
  simp only [settings, steps, List.foldl, on_dmtMode, ite_self]
  cases v.b .dmt <;> cases v.b .polarized <;> cases v.b .presko <;> rfl

theorem settings_tryEq (v : Vals) : (settings v).tryEq = (!v.b .noeq || v.b .sateq) := by
  simp only [settings, steps, List.foldl, on_tryEq, ite_self]
  cases v.b .noeq <;> cases v.b .sateq <;> rfl

theorem settings_eqStruct (v : Vals) : (settings v).eqStruct = (if v.b .sateq then .sat else if v.b .noeq then .off else .bse) := by
  simp only [settings, steps, List.foldl, on_eqStruct, ite_self]
  cases v.b .noeq <;> cases v.b .sateq <;> rfl

theorem settings_dmtFirst (v : Vals) : (settings v).dmtFirst = (v.b .dmt_before_eq) := by
  simp only [settings, steps, List.foldl, on_dmtFirst, ite_self]
  cases v.b .dmt_before_eq <;> rfl

theorem settings_cores (v : Vals) : (settings v).cores = (v.i .core_limit) := by
  simp only [settings, steps, List.foldl, on_cores, ite_self]
  by_cases h : v.i .core_limit = -1 <;> simp [h]

theorem settings_complete (v : Vals) : (settings v).complete = (v.b .completeness && !v.b .vec) := by
  simp only [settings, steps, List.foldl, on_complete, ite_self]
  cases v.b .completeness <;> cases v.b .vec <;> rfl

theorem settings_context (v : Vals) : (settings v).context = (v.b .context) := by
  simp only [settings, steps, List.foldl, on_context, ite_self]
  cases v.b .context <;> rfl

theorem settings_sko (v : Vals) : (settings v).sko = (if v.b .preinner then .preinner else if v.b .inner then .inner else .outer) := by
  simp only [settings, steps, List.foldl, on_sko, ite_self]

theorem settings_eagerEq (v : Vals) : (settings v).eagerEq = (v.b .eagereq) := by
  simp only [settings, steps, List.foldl, on_eagerEq, ite_self]
  cases v.b .eagereq <;> rfl

theorem settings_incrEq (v : Vals) : (settings v).incrEq = (v.b .increq) := by
  simp only [settings, steps, List.foldl, on_incrEq, ite_self]
  cases v.b .increq <;> rfl

theorem settings_chrono (v : Vals) : (settings v).chrono = (v.b .chrono) := by
  simp only [settings, steps, List.foldl, on_chrono, ite_self]
  cases v.b .chrono <;> rfl

theorem settings_proofFile (v : Vals) : (settings v).proofFile = (v.s .proof_file) := by
  simp only [settings, steps, List.foldl, on_proofFile, ite_self]

theorem settings_flatten (v : Vals) : (settings v).flatten = (v.b .flatten) := by
  simp only [settings, steps, List.foldl, on_flatten, ite_self]
  cases v.b .flatten <;> rfl

theorem settings_typeCheck (v : Vals) : (settings v).typeCheck = (!v.b .no_type_check) := by
  simp only [settings, steps, List.foldl, on_typeCheck, ite_self]
  cases v.b .no_type_check <;> rfl

end Verif.Options
