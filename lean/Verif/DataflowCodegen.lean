import Verif.Subset
import Verif.BindCode
/-
  Model of pyverilog/dataflow/dataflow_codegen.py: the Verilog text of a whole dataflow, or of the part of it behind
  some targets.
-/
namespace Pyv

/-- dataflow_codegen.py:21-30 `VerilogCodeGenerator.__init__` and subset.py:22-37 (`set_clock_info`, `set_reset_info`): the
names and the format of the text. -/
structure CodeCfg where
  top : Str
  clock : Str := "CLK".toList
  reset : Str := "RST_X".toList
  modname : Str := "Subset".toList
  enable : Str := "HT_enable".toList
  indent : Nat := 2
  flat : Bool := true

/-- dataflow_codegen.py:70-73, 128-131: an input that is the reset or the clock of the top module (`ScopeChain.__eq__`). -/
def CodeCfg.isSystem (c : CodeCfg) (types : List TermType) (k : ScopeChain) : Bool :=
  types.contains .input &&
    (ScopeChain.pyEq k (toTermnameList [c.top, c.reset]) || ScopeChain.pyEq k (toTermnameList [c.top, c.clock]))

/-- dataflow_codegen.py:66-79: the ports of the header, each followed by a comma and a space. -/
def MergeEnv.headPorts (S : MergeEnv) (c : CodeCfg) : List (ScopeChain × Term) → Py Str
  | [] => .ok []
  | (k, _) :: ts =>
    if isTopmodule (getScope k) then
      match S.terms.get? k with
      | none => .error .definition
      | some t => do
        let rest ← S.headPorts c ts
        if c.isSystem t.types k then .ok rest
        else if t.types.contains .input || t.types.contains .inout || t.types.contains .output then
          .ok (k.tocode ++ ", ".toList ++ rest)
        else .ok rest
    else S.headPorts c ts

/-- dataflow_codegen.py:56-81 `_modulehead`; the last two characters are cut off (`modulehead[:-2]`), whatever they are. -/
def MergeEnv.modulehead (S : MergeEnv) (c : CodeCfg) (terms : List (ScopeChain × Term)) : Py Str := do
  let ps ← S.headPorts c terms
  let h := "`default_nettype none\n".toList ++ "module ".toList ++ c.modname ++ "(".toList ++
    '\n' :: List.replicate c.indent ' ' ++ c.clock ++ ", ".toList ++ c.reset ++ ", ".toList ++ c.enable ++ ", ".toList ++
    '\n' :: List.replicate c.indent ' ' ++ ps
  .ok (h.take (h.length - 2) ++ ");\n\n".toList)

/-- dataflow_codegen.py:44-54 `_input`, `_output`, `_inout`, `_wire`: they differ in the keyword. -/
def codeDecl (word n : Str) : Str := word ++ " ".toList ++ n ++ ";\n".toList

/-- dataflow_codegen.py:98-107 `_assign`.  Its callers pass no bits. -/
def codeAssignTo (l r : Str) : Str := "assign ".toList ++ l ++ " = ".toList ++ r ++ ";\n".toList

/-- dataflow_codegen.py:83-96 `_system_io`. -/
def CodeCfg.systemIo (c : CodeCfg) : Str :=
  let ck := (toTermnameList [c.top, c.clock]).tocode
  let rs := (toTermnameList [c.top, c.reset]).tocode
  codeDecl "input".toList c.clock ++ codeDecl "input".toList c.reset ++ codeDecl "input".toList c.enable ++
    codeDecl "wire".toList ck ++ codeDecl "wire".toList rs ++ codeAssignTo ck c.clock ++ codeAssignTo rs c.reset ++ "\n".toList

/-- dataflow_codegen.py:126-132: the declarations of the signals. -/
def MergeEnv.codeTerms (S : MergeEnv) (c : CodeCfg) : List (ScopeChain × Term) → Py Str
  | [] => .ok []
  | (k, v) :: ts =>
    match S.terms.get? k with
    | none => .error .definition
    | some t => do
      let s ← (if c.isSystem t.types k then .ok [] else v.tocode)
      let rest ← S.codeTerms c ts
      .ok (s ++ rest)

/-- The texts of assignments one after the other. -/
def codeBinds : List Bind → Py Str
  | [] => .ok []
  | b :: bs => do
    let s ← b.tocode
    let rest ← codeBinds bs
    .ok (s ++ rest)

/-- dataflow_codegen.py:137-151: the assignments of a dictionary of sets; `order` is the order in which Python iterates over a
set. -/
def codeSets (order : List Bind → List Bind) (d : Dict ScopeChain (List Bind)) : Py Str := codeBinds (d.flatMap (fun p => order p.2))

/-- dataflow_codegen.py:119-163 `_toCode`; `re.sub('\.', '_', ret)` replaces every dot of the text. -/
def MergeEnv.genText (S : MergeEnv) (c : CodeCfg) (order : List Bind → List Bind) (d : Discretion) : Py Str := do
  let head ← S.modulehead c d.terms
  let ts ← S.codeTerms c d.terms
  let ps ← codeBinds (d.parameter.map (·.2))
  let as ← codeSets order d.assign
  let ck ← codeSets order d.clockedge
  let cb ← codeSets order d.combination
  let ret := head ++ (c.systemIo ++ ts ++ ps ++ as ++ ck ++ cb) ++ "\nendmodule\n".toList
  .ok (if c.flat then ret.map (fun x => if x = '.' then '_' else x) else ret)

/-- The environment of the subset methods (the generator inherits from it). -/
def CodeCfg.subsetEnv (c : CodeCfg) (S : MergeEnv) (order : List ScopeChain → List ScopeChain) : SubsetEnv := ⟨S, c.top, c.clock, order⟩

/-- dataflow_codegen.py:109-117 `generateCode`, `generateSubsetCode`, `generateEntireCode`. -/
def MergeEnv.generateCode (S : MergeEnv) (c : CodeCfg) (fuel : Nat) (orderN : List ScopeChain → List ScopeChain)
    (orderB : List Bind → List Bind) (targets : List ScopeChain) : Py Str := do
  let d ← (if targets = [] then S.getEntire else (c.subsetEnv S orderN).getSubset fuel targets)
  S.genText c orderB d

end Pyv
