import Verif.StmtParser
import Verif.Module
/-
  The module part of the parser: pyverilog/vparser/parser.py.
-/
namespace Pyv

/-- What the LALR parser has read of the modules around the current position, innermost first. -/
inductive MSym where
  /-- `definitions` -/
  | defs (ms : List ModuleDef)
  /-- `MODULE modulename` and, once read, `paramlist` -/
  | mod (n : Str) (ps : Option (List (List Param)))
  /-- `DELAY LPAREN params_begin` -/
  | params (ps : List (List Param))
  /-- `LPAREN ports COMMA` -/
  | plist (ps : List PortD)
  /-- `LPAREN ioports COMMA` -/
  | io (ps : List PortD)
  /-- `sigtypes` and perhaps `width` of a port -/
  | ioS (ps : List PortD) (ws : List Str) (wd : Option WRange)
  /-- the same with `portname` and perhaps `dimensions` -/
  | ioN (ps : List PortD) (ws : List Str) (wd : Option WRange) (n : Str) (dims : Option (List WRange))
  /-- `LBRACKET` of a width or length -/
  | wid1
  /-- `LBRACKET expression COLON` of a width or length -/
  | wid2 (a : Ex)
  /-- the module up to its items -/
  | body (n : Str) (ps : List (List Param)) (ports : List PortD) (is : List MItem)
  /-- `sigtypes`, perhaps `width`, and the names read so far, each with its COMMA -/
  | sig (ws : List Str) (wd : Option WRange) (done : List (Str × Option (List WRange)))
  /-- the same with another name -/
  | sigN (ws : List Str) (wd : Option WRange) (done : List (Str × Option (List WRange))) (n : Str) (dims : Option (List WRange))
  /-- `sigtypes width ID EQUALS` -/
  | sigV (ws : List Str) (wd : Option WRange) (n : Str)
  /-- `INTEGER` and the names read so far -/
  | ints (done : List DItem)
  /-- `INTEGER ... ID EQUALS` -/
  | intV (done : List DItem) (n : Str)
  /-- `REAL` or `GENVAR` and the names read so far -/
  | names (real : Bool) (done : List DItem)
  /-- `PARAMETER` or `LOCALPARAM` (`loc`), perhaps `SIGNED`, `INTEGER` (`opn` is false then), `width`, and the parameters
  read so far -/
  | pdecl (loc sg opn : Bool) (wd : Option WRange) (done : List Param)
  /-- the same with `ID EQUALS` -/
  | pval (loc sg : Bool) (wd : Option WRange) (done : List Param) (n : Str)
  /-- `ASSIGN` -/
  | asn
  /-- `ALWAYS AT LPAREN` and the signals read so far; `cur` is the edge of the signal being read -/
  | sens (k : AlwaysKind) (done : List SensItem) (cur : Option (Option Bool))
  /-- `ALWAYS senslist` -/
  | alw (k : AlwaysKind) (ss : List SensItem)
  /-- `INITIAL` -/
  | ini
  /-- `ID DELAY LPAREN` and the arguments read so far -/
  | pargs (md : Str) (args : List PArg)
  /-- the same with the beginning of another argument -/
  | parg (md : Str) (args : List PArg) (nm : Option Str)
  /-- `ID parameterlist` (`hash`: with DELAY) and the instances read so far -/
  | insts (md : Str) (ps : List PArg) (hash : Bool) (done : List Inst)
  /-- the same with `ID width` -/
  | instA (md : Str) (ps : List PArg) (hash : Bool) (done : List Inst) (n : Str) (arr : Option WRange)
  /-- the same with LPAREN and the arguments read so far -/
  | iports (md : Str) (ps : List PArg) (hash : Bool) (done : List Inst) (n : Str) (arr : Option WRange) (args : List PArg)
  /-- the same with the beginning of another argument -/
  | iport (md : Str) (ps : List PArg) (hash : Bool) (done : List Inst) (n : Str) (arr : Option WRange) (args : List PArg)
      (nm : Option Str)
  /-- `FUNCTION` and perhaps `width` -/
  | fnH (ret : Option WRange)
  /-- `FUNCTION width ID SEMICOLON` (`ret`) or `TASK ID SEMICOLON` and the declarations read so far -/
  | fn (ret : Option WRange) (n : Str) (ds : List (List DItem))
  /-- the same with a statement being read -/
  | fnB (ret : Option WRange) (n : Str) (ds : List (List DItem))
  /-- `GENERATE generate_items` -/
  | gen (is : List MItem)
  /-- `BEGIN generate_items` or `BEGIN COLON ID generate_items` -/
  | gblk (n : Option Str) (is : List MItem)
  /-- the head of a generate if or for is being read -/
  | gst
  /-- `IF LPAREN cond RPAREN` -/
  | gifT (c : Ex)
  /-- `IF LPAREN cond RPAREN gif_true_item` -/
  | gifD (c : Ex) (t : MItem)
  /-- `IF LPAREN cond RPAREN gif_true_item ELSE` -/
  | gifE (c : Ex) (t : MItem)
  /-- `FOR LPAREN forpre forcond forpost RPAREN` -/
  | gforB (l r c ql qr : Ex)
  deriving Repr

/-- The state of the parser: the modules, the statements and the expression around the position, and the tokens left. -/
abbrev MRes := Option (List MSym × List OSym × List Sym × List Tok)

/-- Outside of statements and expressions. -/
def go (m : List MSym) (ts : List Tok) : MRes := some (m, [], [], ts)

/-- parser.py:261-307 `sigtype`. -/
def sigWords : List Str :=
  ["input", "output", "inout", "tri", "reg", "logic", "wire", "signed", "supply0", "supply1"].map String.toList

/-- parser.py:366-382 `typecheck_ioport`: the checks that do not raise ParseError. -/
def ioOK (ws : List Str) : Bool :=
  let h := fun (s : String) => decide (s.toList ∈ ws)
  (h "input" || h "output" || h "inout") && !(h "input" && h "output") && !(h "inout" && h "output") &&
    !(h "inout" && h "input") && !(h "input" && h "reg") && !(h "inout" && h "reg") && !(h "input" && h "tri") &&
    !(h "output" && h "tri")

/-- parser.py:339-364 `create_ioport`; `none` is ParseError. -/
def createIo (ws : List Str) (n : Str) (wd : Option WRange) (dims : Option (List WRange)) : Option PortD :=
  if ioOK ws then
    let sg := decide ("signed".toList ∈ ws)
    let v := fun k => (⟨k, n, wd, sg, dims⟩ : Var)
    let first := if "inout".toList ∈ ws then v .inout else if "output".toList ∈ ws then v .output else v .input
    let second := if "tri".toList ∈ ws then some (v .tri) else if "reg".toList ∈ ws then some (v .reg)
      else if "wire".toList ∈ ws then some (v .wire) else none
    some (.io first second)
  else none

/-- parser.py:309-333 `p_ioports` for a name without a type: the ports before it are searched, the last one first. -/
def inheritIo (n : Str) : List PortD → Option PortD
  | .io f s :: r =>
    match f.kind, s with
    | .input, _ => some (.io ⟨.input, n, f.width, false, none⟩ none)
    | .output, none => some (.io ⟨.output, n, f.width, false, none⟩ none)
    | .output, some v =>
      match v.kind with
      | .reg => some (.io ⟨.output, n, f.width, false, none⟩ (some ⟨.reg, n, f.width, false, none⟩))
      | _ => inheritIo n r
    | .inout, _ => some (.io ⟨.inout, n, f.width, false, none⟩ none)
    | _, _ => inheritIo n r
  | [] => some .none_
  | _ :: _ => none

/-- parser.py:522-543 `typecheck_decl`: the checks that do not raise ParseError. -/
def declOK (ws : List Str) (dims : Option (List WRange)) : Bool :=
  let h := fun (s : String) => decide (s.toList ∈ ws)
  !((h "supply0" || h "supply1") && dims.isSome) && !(ws.length == 1 && h "signed") && !(h "input" && h "output") &&
    !(h "inout" && h "output") && !(h "inout" && h "input") && !(h "input" && h "reg") && !(h "inout" && h "reg") &&
    !(h "input" && h "tri") && !(h "output" && h "tri")

/-- parser.py:487-520 `create_decl`; `none` is ParseError. -/
def createDecl (ws : List Str) (wd : Option WRange) (n : Str) (dims : Option (List WRange)) : Option (List DItem) :=
  if declOK ws dims then
    let sg := decide ("signed".toList ∈ ws)
    let v := fun (k : SigKind) => if k.word ∈ ws then [DItem.var ⟨k, n, wd, sg, dims⟩] else []
    some (v .input ++ v .output ++ v .inout ++ v .wire ++ v .reg ++ v .tri ++
      (if "supply0".toList ∈ ws then [.supply n false wd sg] else []) ++
      (if "supply1".toList ∈ ws then [.supply n true wd sg] else []))
  else none

/-- parser.py:545-561 `p_decl`, `p_decl_width`: one declaration for every name. -/
def createDecls (ws : List Str) (wd : Option WRange) : List (Str × Option (List WRange)) → Option (List DItem)
  | [] => some []
  | (n, dims) :: r =>
    match createDecl ws wd n dims, createDecls ws wd r with
    | some a, some b => some (a ++ b)
    | _, _ => none

/-- parser.py:607-626 `typecheck_declassign`: the checks that do not raise ParseError. -/
def declAssignOK (ws : List Str) : Bool :=
  let h := fun (s : String) => decide (s.toList ∈ ws)
  !(ws.length == 1 && h "signed") && (h "reg" || h "wire") && !(h "input" && h "output") && !(h "inout" && h "output") &&
    !(h "inout" && h "input") && !(h "input" && h "reg") && !(h "inout" && h "reg") &&
    !(h "supply0" && ws.length != 1) && !(h "supply1" && ws.length != 1)

/-- parser.py:584-605 `create_declassign`; `none` is ParseError. -/
def createDeclAssign (ws : List Str) (wd : Option WRange) (n : Str) (e : Ex) : Option (List DItem) :=
  if declAssignOK ws then
    let sg := decide ("signed".toList ∈ ws)
    let v := fun (k : SigKind) => if k.word ∈ ws then [DItem.var ⟨k, n, wd, sg, none⟩] else []
    some (v .input ++ v .output ++ v .inout ++ v .wire ++ v .reg ++ [.assign (.ident [] n) e])
  else none

/-- The ports are complete. -/
def endPorts (ps : List PortD) (m : List MSym) (ts : List Tok) : MRes :=
  match m with
  | .mod n q :: m' => go (.body n (q.getD []) ps [] :: m') ts
  | _ => none

/-- parser.py:2128-2139, 2187-2198 `funcvardecl`, `taskvardecl`: the checks that do not raise ParseError. -/
def DItem.inFn : DItem → Bool
  | .var v => v.kind == .input || v.kind == .reg
  | .int _ _ => true
  | _ => false

/-- A module item is complete; parser.py:1976-2060 the reductions to the generate item around it. -/
def addItem (x : MItem) (m : List MSym) (ts : List Tok) : MRes :=
  match m with
  | .body n ps ports is :: m' => go (.body n ps ports (is ++ [x]) :: m') ts
  | .fn ret n ds :: m' =>
    match x with
    | .decl d => if d.all DItem.inFn then go (.fn ret n (ds ++ [d]) :: m') ts else none
    | _ => none
  | .gen is :: m' => go (.gen (is ++ [x]) :: m') ts
  | .gblk n is :: m' => go (.gblk n (is ++ [x]) :: m') ts
  | .gifT c :: m' => go (.gifD c x :: m') ts
  | .gifE c t :: m' => addItem (.gife c t x) m' ts
  | .gforB l r c ql qr :: m' => addItem (.gfor l r c ql qr x) m' ts
  | _ => none

/-- parser.py:126-140, 142-195, 251-259: the beginning of a definition and of its lists.  Simplification: no pragmas, and
no module named `or`. -/
def stepDefs (ms : List ModuleDef) (m : List MSym) (ts : List Tok) : MRes :=
  match ts with
  | .kw w :: .id n :: ts' => if w = "module".toList then go (.mod n none :: .defs ms :: m) ts' else none
  | _ => none

/-- After the name of the module, or after its parameters. -/
def stepMod (n : Str) (q : Option (List (List Param))) (m : List MSym) (ts : List Tok) : MRes :=
  match ts with
  | .p .delay :: .p .lparen :: ts' => if q.isNone then go (.params [] :: .mod n q :: m) ts' else none
  | .p .semicolon :: ts' => go (.body n (q.getD []) [] [] :: m) ts'
  | .p .lparen :: .p .rparen :: .p .semicolon :: ts' => go (.body n (q.getD []) [] [] :: m) ts'
  | .p .lparen :: .id x :: ts' => go (.plist [] :: .mod n q :: m) (.id x :: ts')
  | .p .lparen :: .kw w :: ts' => go (.io [] :: .mod n q :: m) (.kw w :: ts')
  | _ => none

/-- parser.py:241-259 `ports`. -/
def stepPlist (ps : List PortD) (m : List MSym) (ts : List Tok) : MRes :=
  match ts with
  | .id n :: .p .comma :: ts' => go (.plist (ps ++ [.port n]) :: m) ts'
  | .id n :: .p .rparen :: .p .semicolon :: ts' => endPorts (ps ++ [.port n]) m ts'
  | _ => none

/-- parser.py:309-337, 384-417 `ioports`: the beginning of a port. -/
def stepIo (ps : List PortD) (m : List MSym) (ts : List Tok) : MRes :=
  match ts with
  | .kw w :: ts' => if w ∈ sigWords then go (.ioS ps [w] none :: m) ts' else none
  | .id n :: .p .comma :: ts' =>
    if ps = [] then none else (inheritIo n ps.reverse).bind (fun p => go (.io (ps ++ [p]) :: m) ts')
  | .id n :: .p .rparen :: .p .semicolon :: ts' =>
    if ps = [] then none else (inheritIo n ps.reverse).bind (fun p => endPorts (ps ++ [p]) m ts')
  | _ => none

/-- After some types of a port. -/
def stepIoS (ps : List PortD) (ws : List Str) (wd : Option WRange) (m : List MSym) (ts : List Tok) : MRes :=
  match ts with
  | .kw w :: ts' => if wd.isNone ∧ w ∈ sigWords then go (.ioS ps (ws ++ [w]) wd :: m) ts' else none
  | .p .lbracket :: ts' => if wd.isNone then go (.wid1 :: .ioS ps ws wd :: m) ts' else none
  | .id n :: ts' => go (.ioN ps ws wd n none :: m) ts'
  | _ => none

/-- After the name of a port: only a port with a width has dimensions (parser.py:427-430). -/
def stepIoN (ps : List PortD) (ws : List Str) (wd : Option WRange) (n : Str) (dims : Option (List WRange)) (m : List MSym)
    (ts : List Tok) : MRes :=
  match ts with
  | .p .lbracket :: ts' => if wd.isSome then go (.wid1 :: .ioN ps ws wd n dims :: m) ts' else none
  | .p .comma :: ts' => (createIo ws n wd dims).bind (fun p => go (.io (ps ++ [p]) :: m) ts')
  | .p .rparen :: .p .semicolon :: ts' => (createIo ws n wd dims).bind (fun p => endPorts (ps ++ [p]) m ts')
  | _ => none

/-- parser.py:453-472 `width`, `length`, `dimensions`: the range is complete. -/
def giveRange (r : WRange) (m : List MSym) (ts : List Tok) : MRes :=
  match m with
  | .ioS ps ws _ :: m' => go (.ioS ps ws (some r) :: m') ts
  | .ioN ps ws wd n dims :: m' => go (.ioN ps ws wd n (some (dims.getD [] ++ [r])) :: m') ts
  | .sig ws _ done :: m' => go (.sig ws (some r) done :: m') ts
  | .sigN ws wd done n dims :: m' => go (.sigN ws wd done n (some (dims.getD [] ++ [r])) :: m') ts
  | .pdecl loc sg _ _ done :: m' => go (.pdecl loc sg false (some r) done :: m') ts
  | .instA md ps h done n _ :: m' => go (.instA md ps h done n (some r) :: m') ts
  | .fnH _ :: m' => go (.fnH (some r) :: m') ts
  | _ => none

/-- An action of the parser inside an expression. -/
def mInner (m : List MSym) (i : List Sym) (ts : List Tok) : MRes :=
  (step i ts).map (fun x => (m, [], x.1, x.2))

/-- The first bound of a range. -/
def stepWid1 (m : List MSym) (i : List Sym) (ts : List Tok) : MRes :=
  match i, ts with
  | [.ex e], .p .colon :: ts' => go (.wid2 e :: m) ts'
  | _, _ => mInner (.wid1 :: m) i ts

/-- The second bound of a range. -/
def stepWid2 (a : Ex) (m : List MSym) (i : List Sym) (ts : List Tok) : MRes :=
  match i, ts with
  | [.ex e], .p .rbracket :: ts' => giveRange (a, e) m ts'
  | _, _ => mInner (.wid2 a :: m) i ts

/-- The beginning of a parameter declaration after its keyword: parser.py:174-239, 679-756. -/
def startParam (loc : Bool) (m : List MSym) (ts : List Tok) : MRes :=
  match ts with
  | .kw w :: ts' =>
    if w = "signed".toList then go (.pdecl loc true true none [] :: m) ts'
    else if w = "integer".toList then go (.pdecl loc false false none [] :: m) ts' else none
  | _ => go (.pdecl loc false true none [] :: m) ts

/-- `DELAY LPAREN params_begin`: parser.py:142-239. -/
def stepParams (ps : List (List Param)) (m : List MSym) (ts : List Tok) : MRes :=
  match ts with
  | .kw w :: ts' => if w = "parameter".toList then startParam false (.params ps :: m) ts' else none
  | _ => none

/-- parser.py:758-771 `param_substitution_list`: a name and its `=`. -/
def stepPdecl (loc sg opn : Bool) (wd : Option WRange) (done : List Param) (m : List MSym) (ts : List Tok) : MRes :=
  match ts with
  | .p .lbracket :: ts' => if opn ∧ wd.isNone ∧ done.isEmpty then go (.wid1 :: .pdecl loc sg opn wd done :: m) ts' else none
  | .id n :: .p .equals :: ts' => go (.pval loc sg wd done n :: m) ts'
  | _ => none

/-- The parameters of a declaration are complete. -/
def endParams (loc : Bool) (ps : List Param) (m : List MSym) (ts : List Tok) : MRes :=
  addItem (.decl (ps.map (.param loc))) m ts

/-- The value of a parameter: `,` goes on with the list or, in the header, ends the declaration if `parameter` follows. -/
def stepPval (loc sg : Bool) (wd : Option WRange) (done : List Param) (n : Str) (m : List MSym) (i : List Sym)
    (ts : List Tok) : MRes :=
  match i, ts with
  | [.ex e], .p .semicolon :: ts' => endParams loc (done ++ [⟨n, e, wd, sg⟩]) m ts'
  | [.ex e], .p .rparen :: ts' =>
    match m with
    | .params ps :: .mod md _ :: m' => go (.mod md (some (ps ++ [done ++ [⟨n, e, wd, sg⟩]])) :: m') ts'
    | _ => none
  | [.ex e], .p .comma :: ts' =>
    match m, ts' with
    | .params ps :: m', .kw _ :: _ => go (.params (ps ++ [done ++ [⟨n, e, wd, sg⟩]]) :: m') ts'
    | _, _ => go (.pdecl loc sg false wd (done ++ [⟨n, e, wd, sg⟩]) :: m) ts'
  | _, _ => mInner (.pval loc sg wd done n :: m) i ts

/-- The keyword of an always construct: parser.py:1300-1322. -/
def alwaysWord (w : Str) : Option AlwaysKind :=
  if w = "always".toList then some .always
  else if w = "always_ff".toList then some .ff
  else if w = "always_comb".toList then some .comb
  else if w = "always_latch".toList then some .latch
  else none

/-- parser.py:1324-1327, 1362-1375, 1412-1425 the beginning of a `senslist`.  Simplification: a level signal without
parentheses is refused. -/
def startAlways (k : AlwaysKind) (m : List MSym) (ts : List Tok) : MRes :=
  match ts with
  | .p .at :: .p .times :: ts' => go (.alw k [.all] :: m) ts'
  | .p .at :: .p .lparen :: .p .times :: .p .rparen :: ts' => go (.alw k [.all] :: m) ts'
  | .p .at :: .p .lparen :: ts' => go (.sens k [] none :: m) ts'
  | .p .at :: _ => none
  | _ => go (.alw k [.all] :: m) ts

/-- parser.py:495-515 `standard_item`, by its first token (also 1774-1850 the beginning of an instance).  Not modelled
(refused): pragmas, instances of `or`. -/
def stdItem (m0 : List MSym) (ts : List Tok) : MRes :=
  match ts with
  | .kw w :: ts' =>
    if w ∈ sigWords then go (.sig [w] none [] :: m0) ts'
    else if w = "integer".toList then go (.ints [] :: m0) ts'
    else if w = "real".toList then go (.names true [] :: m0) ts'
    else if w = "genvar".toList then go (.names false [] :: m0) ts'
    else if w = "parameter".toList then startParam false m0 ts'
    else if w = "localparam".toList then startParam true m0 ts'
    else if w = "assign".toList then some (.asn :: m0, [.lhs], [], ts')
    else if w = "initial".toList then go (.ini :: m0) ts'
    else if w = "function".toList then go (.fnH none :: m0) ts'
    else if w = "task".toList then
      match ts' with
      | .id n :: .p .semicolon :: ts'' => go (.fn none n [] :: m0) ts''
      | _ => none
    else match alwaysWord w with
      | some k => startAlways k m0 ts'
      | none => none
  | .id md :: .p .delay :: .p .lparen :: ts' => go (.pargs md [] :: m0) ts'
  | .id md :: .id x :: ts' => go (.insts md [] false [] :: m0) (.id x :: ts')
  | .id md :: .p .lparen :: ts' => go (.insts md [] false [] :: m0) (.p .lparen :: ts')
  | _ => none

/-- parser.py:472-493 a module item, by its first token (1976-1980 the beginning of a generate construct); 126-131 the end of
the module. -/
def stepBody (n : Str) (ps : List (List Param)) (ports : List PortD) (is : List MItem) (m : List MSym) (ts : List Tok) :
    MRes :=
  match ts with
  | .kw w :: ts' =>
    if w = "endmodule".toList then
      match m with
      | .defs ms :: m' => go (.defs (ms ++ [⟨n, ps, ports, is⟩]) :: m') ts'
      | _ => none
    else if w = "generate".toList then go (.gen [] :: .body n ps ports is :: m) ts'
    else stdItem (.body n ps ports is :: m) ts
  | _ => stdItem (.body n ps ports is :: m) ts

/-- parser.py:2089-2113 `function` up to its `;` (a missing width is `[0:0]`, `integer` is `[31:0]`). -/
def stepFnH (ret : Option WRange) (m : List MSym) (ts : List Tok) : MRes :=
  match ts with
  | .p .lbracket :: ts' => if ret.isNone then go (.wid1 :: .fnH ret :: m) ts' else none
  | .kw w :: .id n :: .p .semicolon :: ts' =>
    if ret.isNone ∧ w = "integer".toList then go (.fn (some (.intc "31".toList, .intc "0".toList)) n [] :: m) ts' else none
  | .id n :: .p .semicolon :: ts' => go (.fn (some (ret.getD (.intc "0".toList, .intc "0".toList))) n [] :: m) ts'
  | _ => none

/-- parser.py:2115-2139, 2166-2198: a declaration of a function or task, or its statement: a function declares something. -/
def stepFn (ret : Option WRange) (n : Str) (ds : List (List DItem)) (m : List MSym) (ts : List Tok) : MRes :=
  match ts with
  | .kw w :: ts' =>
    if w ∈ sigWords then go (.sig [w] none [] :: .fn ret n ds :: m) ts'
    else if w = "integer".toList then go (.ints [] :: .fn ret n ds :: m) ts'
    else if ret.isSome ∧ ds = [] then none else go (.fnB ret n ds :: m) ts
  | _ => if ret.isSome ∧ ds = [] then none else go (.fnB ret n ds :: m) ts

/-- parser.py:2141-2154, 2200-2213 `function_calc`, `task_calc`. -/
def Stmt.inFn : Stmt → Bool
  | .nb _ _ => false
  | .cases .unique _ _ _ => false
  | _ => true

/-- The function or task is complete. -/
def endFn (ret : Option WRange) (n : Str) (ds : List (List DItem)) (s : Stmt) (m : List MSym) (ts : List Tok) : MRes :=
  match ret, ts with
  | some r, .kw w :: ts' => if w = "endfunction".toList ∧ s.inFn then addItem (.func n r ds s) m ts' else none
  | none, .kw w :: ts' => if w = "endtask".toList ∧ s.inFn then addItem (.task n ds s) m ts' else none
  | _, _ => none

/-- The statement of a function or task. -/
def stepFnB (ret : Option WRange) (n : Str) (ds : List (List DItem)) (m : List MSym) (o : List OSym) (i : List Sym)
    (ts : List Tok) : MRes :=
  match o, i with
  | [.st s], [] => endFn ret n ds s m ts
  | _, _ => (sstep o i ts).map (fun x => (.fnB ret n ds :: m, x.1, x.2.1, x.2.2))

/-- parser.py:1997-2003 `generate_item`, by its first token. -/
def genItem (m0 : List MSym) (ts : List Tok) : MRes :=
  match ts with
  | .kw w :: _ =>
    if w = "if".toList ∨ w = "for".toList then (startStmt [] ts).map (fun x => (.gst :: m0, x.1, x.2.1, x.2.2))
    else stdItem m0 ts
  | _ => stdItem m0 ts

/-- parser.py:2005-2017 the beginning of a `generate_block`. -/
def startGblk (m0 : List MSym) (ts : List Tok) : MRes :=
  match ts with
  | .p .colon :: .id n :: ts' => go (.gblk (some n) [] :: m0) ts'
  | _ => go (.gblk none [] :: m0) ts

/-- parser.py:2005-2017 `generate_block` or a `generate_item`: 2029-2041, 2048-2053. -/
def branchItem (m0 : List MSym) (ts : List Tok) : MRes :=
  match ts with
  | .kw w :: ts' => if w = "begin".toList then startGblk m0 ts' else genItem m0 ts
  | _ => genItem m0 ts

/-- parser.py:1976-1996 `generate`, `generate_items`. -/
def stepGen (is : List MItem) (m : List MSym) (ts : List Tok) : MRes :=
  match ts with
  | .kw w :: ts' => if w = "endgenerate".toList then addItem (.gen is) m ts' else genItem (.gen is :: m) ts
  | _ => genItem (.gen is :: m) ts

/-- parser.py:2005-2017 `generate_block`. -/
def stepGblk (n : Option Str) (is : List MItem) (m : List MSym) (ts : List Tok) : MRes :=
  match ts with
  | .kw w :: ts' => if w = "end".toList then addItem (.gblock n is) m ts' else genItem (.gblk n is :: m) ts
  | _ => genItem (.gblk n is :: m) ts

/-- parser.py:2019-2027, 2043-2046: the head of a generate if or for is that of a statement. -/
def stepGst (m : List MSym) (o : List OSym) (i : List Sym) (ts : List Tok) : MRes :=
  match o, i with
  | [.ifh c], [] => go (.gifT c :: m) ts
  | [.forB l r c ql qr], [] => go (.gforB l r c ql qr :: m) ts
  | _, _ => (sstep o i ts).map (fun x => (.gst :: m, x.1, x.2.1, x.2.2))

/-- parser.py:2019-2027: with ELSE as lookahead the conflict between the two productions is resolved by shifting. -/
def stepGifD (c : Ex) (t : MItem) (m : List MSym) (ts : List Tok) : MRes :=
  match ts with
  | .kw w :: ts' => if w = "else".toList then go (.gifE c t :: m) ts' else addItem (.gif c t) m ts
  | _ => addItem (.gif c t) m ts

/-- parser.py:545-582: the types, the width and the names of a declaration. -/
def stepSig (ws : List Str) (wd : Option WRange) (done : List (Str × Option (List WRange))) (m : List MSym) (ts : List Tok) : MRes :=
  match ts with
  | .kw w :: ts' => if wd.isNone ∧ done.isEmpty ∧ w ∈ sigWords then go (.sig (ws ++ [w]) wd done :: m) ts' else none
  | .p .lbracket :: ts' => if wd.isNone ∧ done.isEmpty then go (.wid1 :: .sig ws wd done :: m) ts' else none
  | .id n :: ts' => go (.sigN ws wd done n none :: m) ts'
  | _ => none

/-- After a name of a declaration. -/
def stepSigN (ws : List Str) (wd : Option WRange) (done : List (Str × Option (List WRange))) (n : Str) (dims : Option (List WRange))
    (m : List MSym) (ts : List Tok) : MRes :=
  match ts with
  | .p .lbracket :: ts' => go (.wid1 :: .sigN ws wd done n dims :: m) ts'
  | .p .comma :: ts' => go (.sig ws wd (done ++ [(n, dims)]) :: m) ts'
  | .p .semicolon :: ts' => (createDecls ws wd (done ++ [(n, dims)])).bind (fun ds => addItem (.decl ds) m ts')
  | .p .equals :: ts' => if done.isEmpty ∧ dims.isNone then go (.sigV ws wd n :: m) ts' else none
  | _ => none

/-- parser.py:628-646 `declassign`.  Simplification: no delays. -/
def stepSigV (ws : List Str) (wd : Option WRange) (n : Str) (m : List MSym) (i : List Sym) (ts : List Tok) : MRes :=
  match i, ts with
  | [.ex e], .p .semicolon :: ts' => (createDeclAssign ws wd n e).bind (fun ds => addItem (.decl ds) m ts')
  | _, _ => mInner (.sigV ws wd n :: m) i ts

/-- parser.py:655-708 `integerdecl`.  `integer signed`, on which the code raises ValueError, is refused. -/
def stepInts (done : List DItem) (m : List MSym) (ts : List Tok) : MRes :=
  match ts with
  | .id n :: .p .comma :: ts' => go (.ints (done ++ [.int n none]) :: m) ts'
  | .id n :: .p .semicolon :: ts' => addItem (.decl (done ++ [.int n none])) m ts'
  | .id n :: .p .equals :: ts' => go (.intV done n :: m) ts'
  | _ => none

/-- The value of an integer. -/
def stepIntV (done : List DItem) (n : Str) (m : List MSym) (i : List Sym) (ts : List Tok) : MRes :=
  match i, ts with
  | [.ex e], .p .comma :: ts' => go (.ints (done ++ [.int n (some e)]) :: m) ts'
  | [.ex e], .p .semicolon :: ts' => addItem (.decl (done ++ [.int n (some e)])) m ts'
  | _, _ => mInner (.intV done n :: m) i ts

/-- parser.py:711-735 `realdecl` (every variable is named `real`: `Real(p[1], ..)`), 1952-1973 `genvardecl`. -/
def nameItem (real : Bool) (n : Str) : DItem := if real then .real "real".toList else .genvar n

/-- The names of a `real` or `genvar` declaration. -/
def stepNames (real : Bool) (done : List DItem) (m : List MSym) (ts : List Tok) : MRes :=
  match ts with
  | .id n :: .p .comma :: ts' => go (.names real (done ++ [nameItem real n]) :: m) ts'
  | .id n :: .p .semicolon :: ts' => addItem (.decl (done ++ [nameItem real n])) m ts'
  | _ => none

/-- parser.py:773-777 `assignment`: its two sides are read as those of a blocking assignment.  Simplification: no
delays. -/
def stepAsn (m : List MSym) (o : List OSym) (i : List Sym) (ts : List Tok) : MRes :=
  match o, i with
  | [.st (.ba l r)], [] => addItem (.assign l r) m ts
  | _, _ => (sstep o i ts).map (fun x => (.asn :: m, x.1, x.2.1, x.2.2))

/-- parser.py:1300-1322, 1448-1451 `always` and its statement; the action reads the statement's `end_lineno`, an
AttributeError if it is a loop. -/
def stepAlw (k : AlwaysKind) (ss : List SensItem) (m : List MSym) (o : List OSym) (i : List Sym) (ts : List Tok) : MRes :=
  match o, i with
  | [.st s], [] => if s.hasEnd then addItem (.always k ss s) m ts else none
  | _, _ => (sstep o i ts).map (fun x => (.alw k ss :: m, x.1, x.2.1, x.2.2))

/-- parser.py:1735-1743 `initial`. -/
def stepIni (m : List MSym) (o : List OSym) (i : List Sym) (ts : List Tok) : MRes :=
  match o, i with
  | [.st s], [] => addItem (.initial s) m ts
  | _, _ => (sstep o i ts).map (fun x => (.ini :: m, x.1, x.2.1, x.2.2))

/-- parser.py:1329-1346 `edgesig`, 1377-1395 `levelsig`: what may stand in a sensitivity list. -/
def sensOf (cur : Option Bool) (l : Ex) : Option SensItem :=
  match cur, l with
  | some true, .ident _ _ | some true, .ptr _ _ => some (.posedge l)
  | some false, .ident _ _ | some false, .ptr _ _ => some (.negedge l)
  | none, .ident _ _ | none, .ptr _ _ | none, .psel _ _ _ => some (.level l)
  | _, _ => none

/-- An edge. -/
def SensItem.isEdge : SensItem → Bool
  | .posedge _ | .negedge _ => true
  | _ => false

/-- parser.py:1348-1360 `edgesigs`, 1397-1410 `levelsigs`: edges and levels are not mixed. -/
def addSens (done : List SensItem) (s : SensItem) : Option (List SensItem) :=
  if done.all (fun x => x.isEdge == s.isEdge) then some (done ++ [s]) else none

/-- A token after a signal of a sensitivity list. -/
def sensEnd : Tok → Bool
  | .p .comma | .p .rparen => true
  | .kw w => decide (w = "or".toList)
  | _ => false

/-- The signals of a sensitivity list. -/
def stepSens (k : AlwaysKind) (done : List SensItem) (cur : Option (Option Bool)) (m : List MSym) (i : List Sym)
    (ts : List Tok) : MRes :=
  match cur with
  | none =>
    match ts with
    | .kw w :: ts' =>
      if w = "posedge".toList then go (.sens k done (some (some true)) :: m) ts'
      else if w = "negedge".toList then go (.sens k done (some (some false)) :: m) ts'
      else none
    | _ => go (.sens k done (some none) :: m) ts
  | some c =>
    match leftOf i, ts with
    | some l, t :: ts' =>
      if sensEnd t then
        ((sensOf c l).bind (addSens done)).bind (fun done' =>
          if t = .p .rparen then go (.alw k done' :: m) ts' else go (.sens k done' none :: m) ts')
      else mInner (.sens k done cur :: m) i ts
    | _, _ => mInner (.sens k done cur :: m) i ts

/-- parser.py:1851-1897 `parameterlist`: named and unnamed arguments are not mixed. -/
def stepPargs (md : Str) (args : List PArg) (m : List MSym) (ts : List Tok) : MRes :=
  match ts with
  | .p .rparen :: ts' => if args.isEmpty then go (.insts md [] true [] :: m) ts' else none
  | .p .dot :: .id n :: .p .lparen :: ts' =>
    if args.all (fun a => a.name.isSome) then go (.parg md args (some n) :: m) ts' else none
  | _ => if args.all (fun a => a.name.isNone) then go (.parg md args none :: m) ts else none

/-- The value of an argument and what follows it. -/
def stepParg (md : Str) (args : List PArg) (nm : Option Str) (m : List MSym) (i : List Sym) (ts : List Tok) : MRes :=
  match i, nm, ts with
  | [.ex e], some n, .p .rparen :: .p .comma :: ts' => go (.pargs md (args ++ [⟨some n, some e⟩]) :: m) ts'
  | [.ex e], some n, .p .rparen :: .p .rparen :: ts' => go (.insts md (args ++ [⟨some n, some e⟩]) true [] :: m) ts'
  | [.ex _], some _, .p .rparen :: _ => none
  | [.ex e], none, .p .comma :: ts' => go (.pargs md (args ++ [⟨none, some e⟩]) :: m) ts'
  | [.ex e], none, .p .rparen :: ts' => go (.insts md (args ++ [⟨none, some e⟩]) true [] :: m) ts'
  | _, _, _ => mInner (.parg md args nm :: m) i ts

/-- parser.py:1774-1849 `instance_bodylist`, `instance_bodylist_noname`: all instances of a list have a name, or none. -/
def stepInsts (md : Str) (ps : List PArg) (h : Bool) (done : List Inst) (m : List MSym) (ts : List Tok) : MRes :=
  match ts with
  | .id n :: ts' => if done.all (fun i => !i.name.isEmpty) then go (.instA md ps h done n none :: m) ts' else none
  | .p .lparen :: ts' =>
    if !h && done.all (fun i => i.name.isEmpty) then go (.iports md ps h done [] none [] :: m) ts' else none
  | _ => none

/-- After the name of an instance: perhaps an array, then `(`. -/
def stepInstA (md : Str) (ps : List PArg) (h : Bool) (done : List Inst) (n : Str) (arr : Option WRange) (m : List MSym)
    (ts : List Tok) : MRes :=
  match ts with
  | .p .lbracket :: ts' => if arr.isNone then go (.wid1 :: .instA md ps h done n arr :: m) ts' else none
  | .p .lparen :: ts' => go (.iports md ps h done n arr [] :: m) ts'
  | _ => none

/-- An instance is complete. -/
def endInst (md : Str) (ps : List PArg) (h : Bool) (done : List Inst) (m : List MSym) (ts : List Tok) : MRes :=
  match ts with
  | .p .comma :: ts' => go (.insts md ps h done :: m) ts'
  | .p .semicolon :: ts' => addItem (.insts md ps done) m ts'
  | _ => none

/-- parser.py:1899-1950 `instance_ports`: named and unnamed arguments are not mixed; an unnamed list may begin with a
comma, which stands for nothing (`instance_ports_list : empty`). -/
def stepIports (md : Str) (ps : List PArg) (h : Bool) (done : List Inst) (n : Str) (arr : Option WRange) (args : List PArg)
    (m : List MSym) (ts : List Tok) : MRes :=
  match ts with
  | .p .rparen :: ts' => if args.isEmpty then endInst md ps h (done ++ [⟨n, arr, []⟩]) m ts' else none
  | .p .dot :: .id x :: .p .lparen :: .p .rparen :: ts' =>
    if args.all (fun a => a.name.isSome) then
      match ts' with
      | .p .comma :: ts'' => go (.iports md ps h done n arr (args ++ [⟨some x, none⟩]) :: m) ts''
      | .p .rparen :: ts'' => endInst md ps h (done ++ [⟨n, arr, args ++ [⟨some x, none⟩]⟩]) m ts''
      | _ => none
    else none
  | .p .dot :: .id x :: .p .lparen :: ts' =>
    if args.all (fun a => a.name.isSome) then go (.iport md ps h done n arr args (some x) :: m) ts' else none
  | .p .comma :: ts' => if args.isEmpty then go (.iport md ps h done n arr [] none :: m) ts' else none
  | _ => if args.all (fun a => a.name.isNone) then go (.iport md ps h done n arr args none :: m) ts else none

/-- The value of a port and what follows it. -/
def stepIport (md : Str) (ps : List PArg) (h : Bool) (done : List Inst) (n : Str) (arr : Option WRange) (args : List PArg)
    (nm : Option Str) (m : List MSym) (i : List Sym) (ts : List Tok) : MRes :=
  match i, nm, ts with
  | [.ex e], some x, .p .rparen :: .p .comma :: ts' => go (.iports md ps h done n arr (args ++ [⟨some x, some e⟩]) :: m) ts'
  | [.ex e], some x, .p .rparen :: .p .rparen :: ts' => endInst md ps h (done ++ [⟨n, arr, args ++ [⟨some x, some e⟩]⟩]) m ts'
  | [.ex _], some _, .p .rparen :: _ => none
  | [.ex e], none, .p .comma :: ts' => go (.iports md ps h done n arr (args ++ [⟨none, some e⟩]) :: m) ts'
  | [.ex e], none, .p .rparen :: ts' => endInst md ps h (done ++ [⟨n, arr, args ++ [⟨none, some e⟩]⟩]) m ts'
  | _, _, _ => mInner (.iport md ps h done n arr args nm :: m) i ts

/-- One action of the parser (several LALR actions where they are forced).  Outside of statements and expressions `o` and
`i` are empty. -/
def mstep (m : List MSym) (o : List OSym) (i : List Sym) (ts : List Tok) : MRes :=
  match m with
  | [] => none
  | .defs ms :: m' => stepDefs ms m' ts
  | .mod n q :: m' => stepMod n q m' ts
  | .params ps :: m' => stepParams ps m' ts
  | .plist ps :: m' => stepPlist ps m' ts
  | .io ps :: m' => stepIo ps m' ts
  | .ioS ps ws wd :: m' => stepIoS ps ws wd m' ts
  | .ioN ps ws wd n dims :: m' => stepIoN ps ws wd n dims m' ts
  | .wid1 :: m' => stepWid1 m' i ts
  | .wid2 a :: m' => stepWid2 a m' i ts
  | .body n ps ports is :: m' => stepBody n ps ports is m' ts
  | .sig ws wd done :: m' => stepSig ws wd done m' ts
  | .sigN ws wd done n dims :: m' => stepSigN ws wd done n dims m' ts
  | .sigV ws wd n :: m' => stepSigV ws wd n m' i ts
  | .ints done :: m' => stepInts done m' ts
  | .intV done n :: m' => stepIntV done n m' i ts
  | .names r done :: m' => stepNames r done m' ts
  | .pdecl loc sg opn wd done :: m' => stepPdecl loc sg opn wd done m' ts
  | .pval loc sg wd done n :: m' => stepPval loc sg wd done n m' i ts
  | .asn :: m' => stepAsn m' o i ts
  | .sens k done cur :: m' => stepSens k done cur m' i ts
  | .alw k ss :: m' => stepAlw k ss m' o i ts
  | .ini :: m' => stepIni m' o i ts
  | .pargs md args :: m' => stepPargs md args m' ts
  | .parg md args nm :: m' => stepParg md args nm m' i ts
  | .insts md ps h done :: m' => stepInsts md ps h done m' ts
  | .instA md ps h done n arr :: m' => stepInstA md ps h done n arr m' ts
  | .iports md ps h done n arr args :: m' => stepIports md ps h done n arr args m' ts
  | .iport md ps h done n arr args nm :: m' => stepIport md ps h done n arr args nm m' i ts
  | .fnH ret :: m' => stepFnH ret m' ts
  | .fn ret n ds :: m' => stepFn ret n ds m' ts
  | .fnB ret n ds :: m' => stepFnB ret n ds m' o i ts
  | .gen is :: m' => stepGen is m' ts
  | .gblk n is :: m' => stepGblk n is m' ts
  | .gst :: m' => stepGst m' o i ts
  | .gifT c :: m' => branchItem (.gifT c :: m') ts
  | .gifD c t :: m' => stepGifD c t m' ts
  | .gifE c t :: m' => branchItem (.gifE c t :: m') ts
  | .gforB l r c ql qr :: m' => branchItem (.gforB l r c ql qr :: m') ts

/-- The parser's loop on the tokens of a source text (parser.py:71-93). -/
def mparseN : Nat → List MSym → List OSym → List Sym → List Tok → Option (List ModuleDef)
  | 0, _, _, _, _ => none
  | n + 1, m, o, i, ts =>
    match m, ts with
    | [.defs ms], [] => if ms = [] then none else some ms
    | _, _ =>
      match mstep m o i ts with
      | none => none
      | some (m', o', i', ts') => mparseN n m' o' i' ts'

/-- The source text is parsed to these modules. -/
def SourceParsesTo (text : Str) (ms : List ModuleDef) : Prop :=
  ∃ ts, lex text = some ts ∧ ∃ n, mparseN n [.defs []] [] [] ts = some ms

end Pyv
