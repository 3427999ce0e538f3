import Verif.Types
/-!
# The syntax tree, the heap of value cells, and printing: src/internals/ast/structs.rs

`Rc<RefCell<TOMLValue>>` is an address into a heap of cells.  The inner `RefCell`s of `TOMLValue::Array` and `TOMLValue::InlineTable` are never
written by the code, so their contents are stored in the cell directly.
-/

namespace Tomllib

/-- The address of an `Rc<RefCell<TOMLValue>>`. -/
abbrev Addr := Nat

/-- src/internals/ast/structs.rs:318-321 -/
structure WSSep where
  ws1 : Str
  ws2 : Str
  deriving DecidableEq, Repr

/-- src/internals/ast/structs.rs:342-346 -/
structure KeyVal where
  key : Str
  sep : WSSep
  val : Addr
  deriving DecidableEq, Repr

/-- src/internals/ast/structs.rs:374-377 -/
structure WSKeySep where
  ws : WSSep
  key : Str
  deriving DecidableEq, Repr

/-- src/internals/ast/structs.rs:454-456: `keys[0].ws` holds the blanks after the opening and before the closing bracket. -/
structure Table where
  keys : List WSKeySep
  deriving DecidableEq, Repr

/-- src/internals/ast/structs.rs:265-268 -/
inductive TableType where
  | std (t : Table)
  | arr (t : Table)
  deriving DecidableEq, Repr

/-- src/internals/ast/structs.rs:512-516 and 547-550: a comment with surrounding blanks and newlines, or blanks and newlines only. -/
inductive CNL where
  | comment (pre text nls : Str)
  | newlines (nls : Str)
  deriving DecidableEq, Repr

/-- src/internals/ast/structs.rs:603-607 -/
structure ArrayValue where
  val : Addr
  sep : Option WSSep
  cnls : List CNL
  deriving DecidableEq, Repr

/-- src/internals/ast/structs.rs:691-695 -/
structure TableKeyVal where
  keyval : KeyVal
  sep : Option WSSep
  cnls : List CNL
  deriving DecidableEq, Repr

/-- `TOMLValue`, src/internals/ast/structs.rs:126-135, with `Array` (652-656) and `InlineTable` (741-744) unfolded. -/
inductive TVal where
  | int (s : Str)
  | float (s : Str)
  | bool (b : Bool)
  | dt (d : DateTime)
  | arr (vals : List ArrayValue) (cnls1 cnls2 : List CNL)
  | str (s : Str) (t : StrType)
  | itab (kvs : List TableKeyVal) (ws : WSSep)
  | table
  deriving DecidableEq, Repr

/-- All cells ever allocated. -/
abbrev Heap := List TVal

/-- src/internals/ast/structs.rs:87-92; at most one of `keyval` and `table` is present. `comment` is the text after `#`. -/
structure Expression where
  ws : WSSep
  keyval : Option KeyVal
  table : Option TableType
  comment : Option Str
  deriving DecidableEq, Repr

/-- src/internals/ast/structs.rs:54-57 -/
structure NLExpression where
  nl : Str
  expr : Expression
  deriving DecidableEq, Repr

/-- src/internals/ast/structs.rs:27-29 -/
structure Toml where
  exprs : List NLExpression
  deriving DecidableEq, Repr

/-- src/internals/ast/structs.rs:137-147 -/
inductive ArrayType where
  | int | float | bool | dt | arr | str | itab | none
  deriving DecidableEq, Repr

/-- src/internals/objects.rs:14-25 -/
def TVal.arrayType : TVal → Out ArrayType
  | .int _ => .ok .int
  | .float _ => .ok .float
  | .bool _ => .ok .bool
  | .dt _ => .ok .dt
  | .arr _ _ _ => .ok .arr
  | .str _ _ => .ok .str
  | .itab _ _ => .ok .itab
  | .table => .panic .tableInArray

/-- src/internals/ast/structs.rs:149-153 -/
structure HashValue where
  value : Option Addr
  subkeys : Children
  deriving DecidableEq, Repr

/-- `map: HashMap<String, HashValue>` -/
abbrev KMap := SMap HashValue

/-! ## Printing -/

/-- src/internals/ast/structs.rs:301-305 -/
def commentStr (text : Str) : Str := lit% "#" ++ text

/-- src/internals/ast/structs.rs:526-530 and 562-569 -/
def CNL.disp : CNL → Str
  | .comment pre text nls => pre ++ commentStr text ++ nls
  | .newlines n => n

/-- One after the other. -/
def cnlsStr : List CNL → Str
  | [] => []
  | c :: cs => c.disp ++ cnlsStr cs

/-- The separator after a value: nothing, or `<ws1>,<ws2>`. -/
def sepStr : Option WSSep → Str
  | none => []
  | some s => s.ws1 ++ lit% "," ++ s.ws2

/-- Array elements, src/internals/ast/structs.rs:617-635 (the two branches print the same) within 666-680. -/
def renderAVs (r : Addr → Out Str) : List ArrayValue → Out Str
  | [] => .ok []
  | av :: avs => do
    let s ← r av.val
    let t ← renderAVs r avs
    .ok (s ++ sepStr av.sep ++ cnlsStr av.cnls ++ t)

/-- src/internals/ast/structs.rs:356-360 -/
def renderKV (r : Addr → Out Str) (kv : KeyVal) : Out Str := do
  let s ← r kv.val
  .ok (kv.key ++ kv.sep.ws1 ++ lit% "=" ++ kv.sep.ws2 ++ s)

/-- Pairs of an inline table, src/internals/ast/structs.rs:705-723. -/
def renderTKVs (r : Addr → Out Str) : List TableKeyVal → Out Str
  | [] => .ok []
  | kv :: kvs => do
    let s ← renderKV r kv.keyval
    let t ← renderTKVs r kvs
    .ok (s ++ sepStr kv.sep ++ cnlsStr kv.cnls ++ t)

/-- `Display` of `TOMLValue`, src/internals/ast/structs.rs:242-262, `Array` 666-680, `InlineTable` 753-764
(`0..self.keyvals.len() - 1` underflows when there is no pair). `r` prints the cells below. -/
def renderTV (r : Addr → Out Str) : TVal → Out Str
  | .int s => .ok s
  | .float s => .ok s
  | .bool b => .ok (boolStr b)
  | .dt d => .ok d.disp
  | .arr vals c1 c2 => do
    let s ← renderAVs r vals
    .ok (lit% "[" ++ cnlsStr c1 ++ s ++ cnlsStr c2 ++ lit% "]")
  | .str s t => .ok (t.quote s)
  | .itab [] _ => .panic .underflow
  | .itab (kv :: kvs) ws => do
    let s ← renderTKVs r (kv :: kvs)
    .ok (lit% "{" ++ ws.ws1 ++ s ++ ws.ws2 ++ lit% "}")
  | .table => .ok (lit% "$Table")

/-- Print the cell at an address; the first argument bounds the nesting depth. -/
def renderAt : Nat → Heap → Addr → Out Str
  | 0, _, _ => .fuel
  | f + 1, h, a => match h[a]? with
    | none => .panic .dangling
    | some v => renderTV (renderAt f h) v

/-- Print the cell at an address.  A chain of nested cells cannot be longer than the heap. -/
def render (h : Heap) (a : Addr) : Out Str := renderAt (h.length + 1) h a

/-- src/internals/ast/structs.rs:386-390 -/
def WSKeySep.disp (k : WSKeySep) : Str := k.ws.ws1 ++ lit% "." ++ k.ws.ws2 ++ k.key

/-- The keys of a table header after the first. -/
def subkeysStr : List WSKeySep → Str
  | [] => []
  | k :: ks => k.disp ++ subkeysStr ks

/-- src/internals/ast/structs.rs:464-477 -/
def Table.disp (t : Table) : Str :=
  match t.keys with
  | [] => []
  | k :: ks => k.ws.ws1 ++ k.key ++ subkeysStr ks ++ k.ws.ws2

/-- src/internals/ast/structs.rs:280-287 -/
def TableType.disp : TableType → Str
  | .std t => lit% "[" ++ t.disp ++ lit% "]"
  | .arr t => lit% "[[" ++ t.disp ++ lit% "]]"

/-- src/internals/ast/structs.rs:103-116 -/
def renderExpr (h : Heap) (e : Expression) : Out Str :=
  match e.keyval, e.table, e.comment with
  | none, none, none => .ok e.ws.ws1
  | none, none, some c => .ok (e.ws.ws1 ++ commentStr c)
  | some kv, none, some c => do
    let s ← renderKV (render h) kv
    .ok (e.ws.ws1 ++ s ++ e.ws.ws2 ++ commentStr c)
  | some kv, none, none => do
    let s ← renderKV (render h) kv
    .ok (e.ws.ws1 ++ s ++ e.ws.ws2)
  | none, some t, some c => .ok (e.ws.ws1 ++ t.disp ++ e.ws.ws2 ++ commentStr c)
  | none, some t, none => .ok (e.ws.ws1 ++ t.disp ++ e.ws.ws2)
  | some _, some _, _ => .panic .badExpression

/-- src/internals/ast/structs.rs:66-70 -/
def renderNL (h : Heap) (e : NLExpression) : Out Str := do
  let s ← renderExpr h e.expr
  .ok (e.nl ++ s)

/-- One after the other. -/
def renderNLs (h : Heap) : List NLExpression → Out Str
  | [] => .ok []
  | e :: es => do
    let s ← renderNL h e
    let t ← renderNLs h es
    .ok (s ++ t)

/-- src/internals/ast/structs.rs:37-44: `0..self.exprs.len()-1` underflows on a tree without expressions. -/
def renderToml (h : Heap) (t : Toml) : Out Str :=
  match t.exprs with
  | [] => .panic .underflow
  | e :: es => renderNLs h (e :: es)

/-! ## From cells to values -/

/-- Values of array elements, src/internals/parser.rs:404-410. -/
def toValAVs (r : Addr → Out Value) : List ArrayValue → Out (List Value)
  | [] => .ok []
  | av :: avs => do
    let v ← r av.val
    let vs ← toValAVs r avs
    .ok (v :: vs)

/-- Values of an inline table, src/internals/parser.rs:412-418. -/
def toValTKVs (r : Addr → Out Value) : List TableKeyVal → Out (List (Str × Value))
  | [] => .ok []
  | kv :: kvs => do
    let v ← r kv.keyval.val
    let vs ← toValTKVs r kvs
    .ok ((kv.keyval.key, v) :: vs)

/-- `to_val!`, src/internals/macros.rs:1-14. -/
def toValTV (r : Addr → Out Value) : TVal → Out Value
  | .int s => .ok (.int s)
  | .float s => .ok (.float s)
  | .bool b => .ok (.bool b)
  | .dt d => .ok (.dt d)
  | .arr vals _ _ => do
    let vs ← toValAVs r vals
    .ok (.arr vs)
  | .str s t => .ok (.str s t)
  | .itab kvs _ => do
    let vs ← toValTKVs r kvs
    .ok (.itab vs)
  | .table => .panic .tableToVal

/-- `to_val!` of the cell at an address; the first argument bounds the nesting depth. -/
def toValAt : Nat → Heap → Addr → Out Value
  | 0, _, _ => .fuel
  | f + 1, h, a => match h[a]? with
    | none => .panic .dangling
    | some v => toValTV (toValAt f h) v

/-- `to_val!` of the cell at an address. -/
def toVal (h : Heap) (a : Addr) : Out Value := toValAt (h.length + 1) h a

/-! ## Table keys -/

/-- The artificial name of the document root in the key table. -/
def root : Str := lit% "$Root$"

/-- `get_last_keys(None, t)`, src/internals/ast/structs.rs:402-410; the code never passes anything but `None`. -/
def lastKeys (t : Table) : List Str := root :: t.keys.map (·.key)

/-- Join with dots. -/
def joinDot : List Str → Str
  | [] => []
  | [k] => k
  | k :: ks => k ++ lit% "." ++ joinDot ks

/-- The table of a table type. -/
def TableType.table : TableType → Table
  | .std t => t
  | .arr t => t

/-- `format_keys`/`format_tt_keys`, src/internals/ast/structs.rs:423-449. -/
def TableType.keyStr (t : TableType) : Str := joinDot (t.table.keys.map (·.key))

/-- src/internals/ast/structs.rs:492-507: the key text of `prev` is found at position 0 of ours. -/
def TableType.isSubtableOf (t prev : TableType) : Bool := prev.keyStr.isPrefixOf t.keyStr

end Tomllib
