import Verif.Py

/-!
# The LLVM back end: the code generator, LLVM's checks and the execution of the generated code

Models pydatastructs/linear_data_structures/_backend/cpp/algorithms/llvm_algorithms.py. The functions there build LLVM
code with llvmlite; the model has the fragment of llvmlite's builder that they use, the two rules of LLVM's verifier that
matter here, and an interpreter of the generated code. llvmlite and LLVM are not part of /repo: what the model assumes
about them is said at each definition and belongs to the trusted base.
-/
open Py
namespace Model.Llvm

/-- Operands in the code built by llvm_algorithms.py 45-127: a register, a constant of type `i32`, the parameter `arr` or the parameter `n`. -/
inductive Opd where
  | reg (r : Nat) | const (c : Int) | arr | n
  deriving DecidableEq, Repr

/-- Instructions used by llvm_algorithms.py 45-127, 177-261. `gt`/`lt` on elements are `icmp_signed` or
`fcmp_ordered`, whichever fits the element type. -/
inductive Instr where
  | phi (inc : List (Opd × Nat))
  | cmpLe (a b : Opd) | cmpLt (a b : Opd) | elemGt (a b : Opd) | elemLt (a b : Opd)
  | add (a b : Opd) | sub (a b : Opd) | sext (a : Opd) | gep (base idx : Opd) | load (p : Opd) | store (v p : Opd)
  | br (l : Nat) | cbr (c : Opd) (l₁ l₂ : Nat) | ret
  deriving DecidableEq, Repr

/-- A function as built by llvm_algorithms.py 45-127: its basic blocks; a label is the position of its block, and every instruction comes
with the number of its result register. -/
abbrev Fn := List (List (Nat × Instr))

/-! ## The builder -/

/-- State of an `ir.IRBuilder` (llvm_algorithms.py 72): the blocks so far, the block it is positioned at, and a fresh register. -/
structure Build where
  blocks : Fn := []
  cur : Nat := 0
  next : Nat := 0

/-- Code that builds code (llvm_algorithms.py 45-127); it may raise. -/
abbrev BuildM := StateT Build PyM

/-- `fn.append_basic_block(name)` (llvm_algorithms.py 62-70). -/
def block : BuildM Nat := fun b => .ok (b.blocks.length, { b with blocks := b.blocks ++ [[]] })

/-- `b.position_at_end(block)` (llvm_algorithms.py 77). -/
def positionAt (l : Nat) : BuildM Unit := fun b => .ok ((), { b with cur := l })

/-- One instruction at the end of the current block, as every builder call of llvm_algorithms.py 72-125 adds it. -/
def emit (i : Instr) : BuildM Opd := fun b =>
  .ok (.reg b.next, { b with blocks := b.blocks.modify b.cur (· ++ [(b.next, i)]), next := b.next + 1 })

/-- `b.sext(value, typ)` (llvm_algorithms.py 97, 244): llvmlite raises when `typ` is no LLVM type. (It is an
`AssertionError`; every caller turns every exception into `RuntimeError`.) -/
def sext (a : Opd) (isType : Bool) : BuildM Opd := if isType then emit (.sext a) else fun _ => .error .typeError

/-- `phi.add_incoming(value, block)` (llvm_algorithms.py 79). -/
def addIncoming (phi v : Opd) (l : Nat) : BuildM Unit := fun b =>
  .ok ((), { b with blocks := b.blocks.map fun blk => blk.map fun e =>
    match e.2 with
    | .phi inc => if phi = .reg e.1 then (e.1, .phi (inc ++ [(v, l)])) else e
    | _ => e })

/-- `with b.if_then(cond): ...` (llvm_algorithms.py 233-234) with an empty body: llvmlite appends two blocks, branches to
the first if the condition holds, from there to the second, and goes on at the end of the second. -/
def ifThenNothing (c : Opd) : BuildM Unit := do
  let bIf ← block
  let bEnd ← block
  let _ ← emit (.cbr c bIf bEnd)
  positionAt bIf
  let _ ← emit (.br bEnd)
  positionAt bEnd

/-- `_build_bubble_sort_ir` (llvm_algorithms.py 45-127). The element type only decides between the integer and the
floating-point comparison (lines 107-110), which are both `elemGt` here. -/
def buildBubble : BuildM Unit := do
  let entry ← block
  let outer ← block
  let innerInit ← block
  let inner ← block
  let body ← block
  let swap ← block
  let innerLatch ← block
  let outerLatch ← block
  let exit ← block
  positionAt entry
  let condTrivial ← emit (.cmpLe .n (.const 1))
  let _ ← emit (.cbr condTrivial exit outer)
  positionAt outer
  let i ← emit (.phi [])
  addIncoming i (.const 0) entry
  let n1 ← emit (.sub .n (.const 1))
  let condOuter ← emit (.cmpLt i n1)
  let _ ← emit (.cbr condOuter innerInit exit)
  positionAt innerInit
  let limit ← emit (.sub n1 i)
  let _ ← emit (.br inner)
  positionAt inner
  let j ← emit (.phi [])
  addIncoming j (.const 0) innerInit
  let condInner ← emit (.cmpLt j limit)
  let _ ← emit (.cbr condInner body outerLatch)
  positionAt body
  let j64 ← sext j true
  let jp1 ← emit (.add j (.const 1))
  let jp1_64 ← sext jp1 true
  let ptrJ ← emit (.gep .arr j64)
  let ptrJp1 ← emit (.gep .arr jp1_64)
  let valJ ← emit (.load ptrJ)
  let valJp1 ← emit (.load ptrJp1)
  let shouldSwap ← emit (.elemGt valJ valJp1)
  let _ ← emit (.cbr shouldSwap swap innerLatch)
  positionAt swap
  let _ ← emit (.store valJp1 ptrJ)
  let _ ← emit (.store valJ ptrJp1)
  let _ ← emit (.br innerLatch)
  positionAt innerLatch
  let jNext ← emit (.add j (.const 1))
  addIncoming j jNext innerLatch
  let _ ← emit (.br inner)
  positionAt outerLatch
  let iNext ← emit (.add i (.const 1))
  addIncoming i iNext outerLatch
  let _ ← emit (.br outer)
  positionAt exit
  let _ ← emit .ret

/-- `_build_selection_sort_ir` (llvm_algorithms.py 177-261). Line 244 assigns the widened `i` to the variable `i64` that
held the type, so that line 245 passes an instruction as a type: `i64IsType` is `false` in the code as it is; with `true`
the definition describes the code with that slip repaired. Line 234 rebinds the Python variable `min_idx` to `j`, whatever
the comparison gives at run time. -/
def buildSelection (i64IsType : Bool) : BuildM Unit := do
  let entry ← block
  let outer ← block
  let inner ← block
  let innerLatch ← block
  let swap ← block
  let exit ← block
  positionAt entry
  let condTrivial ← emit (.cmpLe .n (.const 1))
  let _ ← emit (.cbr condTrivial exit outer)
  positionAt outer
  let i ← emit (.phi [])
  addIncoming i (.const 0) entry
  let condOuter ← emit (.cmpLt i .n)
  let _ ← emit (.cbr condOuter inner exit)
  positionAt inner
  let minIdx ← emit (.phi [])
  addIncoming minIdx i outer
  let j ← emit (.phi [])
  let i1 ← emit (.add i (.const 1))
  addIncoming j i1 outer
  let condInner ← emit (.cmpLt j .n)
  let _ ← emit (.cbr condInner innerLatch swap)
  positionAt innerLatch
  let j64 ← sext j true
  let min64 ← sext minIdx true
  let ptrJ ← emit (.gep .arr j64)
  let ptrMin ← emit (.gep .arr min64)
  let valJ ← emit (.load ptrJ)
  let valMin ← emit (.load ptrMin)
  let cmp ← emit (.elemLt valJ valMin)
  ifThenNothing cmp
  let minIdx := j
  let jNext ← emit (.add j (.const 1))
  addIncoming j jNext innerLatch
  addIncoming minIdx minIdx innerLatch
  let _ ← emit (.br inner)
  positionAt swap
  let i64 ← sext i true
  let min64 ← sext minIdx i64IsType
  let ptrI ← emit (.gep .arr i64)
  let ptrMin ← emit (.gep .arr min64)
  let valI ← emit (.load ptrI)
  let valMin ← emit (.load ptrMin)
  let _ ← emit (.store valMin ptrI)
  let _ ← emit (.store valI ptrMin)
  let iNext ← emit (.add i (.const 1))
  addIncoming i iNext swap
  let _ ← emit (.br outer)
  positionAt exit
  let _ ← emit .ret

/-- The function built, `str(mod)` in llvm_algorithms.py 127 and 261. -/
def built (m : BuildM Unit) : PyM Fn := (m.run {}).map fun r => r.2.blocks

/-! ## LLVM's verifier -/

/-- Does the instruction end a block? (the branches and `ret_void` of llvm_algorithms.py 45-127) -/
def Instr.ends : Instr → Bool
  | .br _ | .cbr .. | .ret => true
  | _ => false

/-- The labels an instruction of llvm_algorithms.py 45-127 may branch to. -/
def Instr.targets : Instr → List Nat
  | .br l => [l]
  | .cbr _ l₁ l₂ => [l₁, l₂]
  | _ => []

/-- Is it a phi node? (llvm_algorithms.py 78, 91) -/
def Instr.isPhi : Instr → Bool
  | .phi _ => true
  | _ => false

/-- The blocks that may branch to the block `l`, for the rule on phi nodes that `mod.verify()` (llvm_algorithms.py 137) checks. -/
def preds (f : Fn) (l : Nat) : List Nat :=
  (List.range f.length).filter fun k => (f.getD k []).any fun e => l ∈ e.2.targets

/-- What `mod.verify()` (llvm_algorithms.py 137, 275) checks of a block: it ends with its only branch, phi nodes come first, and every phi
node has exactly one entry for each block that may branch here, and no others. (LLVM checks more: types, and that
registers are assigned before they are used. Leaving that out only makes the model accept more; that the accepted function reads
no unassigned register is proved by executing it.) -/
def blockFine (f : Fn) (l : Nat) (b : List (Nat × Instr)) : Bool :=
  (b.getLast?.map fun e => e.2.ends).getD false && b.dropLast.all (fun e => !e.2.ends) &&
  (b.dropWhile fun e => e.2.isPhi).all (fun e => !e.2.isPhi) &&
  b.all fun e => match e.2 with
    | .phi inc => decide ((inc.map (·.2)).Perm (preds f l))
    | _ => true

/-- `mod.verify()` (llvm_algorithms.py 137, 275). -/
def verify (f : Fn) : Bool := (List.range f.length).all fun l => blockFine f l (f.getD l [])

/-- `_materialize` and `_materialize_selection` (llvm_algorithms.py 129-166, 264-291) without the cache: build, parse,
verify and compile; every exception becomes `RuntimeError`. Compilation keeps the meaning of the function, which is
what LLVM promises. -/
def compile (m : BuildM Unit) : PyM Fn :=
  match built m with
  | .ok f => if verify f then .ok f else .error .runtimeError
  | .error _ => .error .runtimeError

/-! ## Executing the code -/

/-- Values of registers in the code of llvm_algorithms.py 45-127. A pointer is the element offset from `arr`. -/
inductive Val (ε : Type) where
  | i1 (b : Bool) | i32 (x : BitVec 32) | i64 (x : BitVec 64) | ptr (k : Int) | elem (e : ε)

/-- An execution of the code of llvm_algorithms.py 45-127: registers, the array, the block it comes from, the current block, and whether it has returned. -/
structure Exec (ε : Type) where
  env : Nat → Option (Val ε)
  mem : List ε
  pred : Nat
  cur : Nat
  done : Bool

variable {ε : Type}

/-- The value of an operand (llvm_algorithms.py 45-127); `n` is the second argument of the call. -/
def opd (n : BitVec 32) (env : Nat → Option (Val ε)) : Opd → PyM (Val ε)
  | .reg r => match env r with
    | some v => .ok v
    | none => .error .undefined
  | .const c => .ok (.i32 (BitVec.ofInt 32 c))
  | .arr => .ok (.ptr 0)
  | .n => .ok (.i32 n)

/-- An operand of type `i32` (llvm_algorithms.py 45-127). -/
def opd32 (n : BitVec 32) (env : Nat → Option (Val ε)) (o : Opd) : PyM (BitVec 32) := do
  match ← opd n env o with
  | .i32 x => .ok x
  | _ => .error .undefined

/-- An operand that is an array element (llvm_algorithms.py 45-127). -/
def opdElem (n : BitVec 32) (env : Nat → Option (Val ε)) (o : Opd) : PyM ε := do
  match ← opd n env o with
  | .elem x => .ok x
  | _ => .error .undefined

/-- An operand that points into the array, as the offset of an element that exists (llvm_algorithms.py 102-105, 115-116): anything
else would be undefined behaviour. -/
def opdPtr (n : BitVec 32) (env : Nat → Option (Val ε)) (mem : List ε) (o : Opd) : PyM Nat := do
  match ← opd n env o with
  | .ptr k => if 0 ≤ k ∧ k < mem.length then .ok k.toNat else .error .undefined
  | _ => .error .undefined

/-- Registers after an assignment (SSA values of llvm_algorithms.py 45-127). -/
def setReg (env : Nat → Option (Val ε)) (r : Nat) (v : Val ε) : Nat → Option (Val ε) := fun q => if q = r then some v else env q

/-- The phi nodes of a block (llvm_algorithms.py 78, 91), all evaluated with the registers before the branch. -/
def phis (n : BitVec 32) (old : Nat → Option (Val ε)) (pred : Nat) :
    List (Nat × Instr) → (Nat → Option (Val ε)) → PyM (Nat → Option (Val ε))
  | (r, .phi inc) :: b, env => do
    match inc.find? (fun p => p.2 = pred) with
    | some p => do
      let v ← opd n old p.1
      phis n old pred b (setReg env r v)
    | none => .error .undefined
  | _, env => .ok env

/-- One instruction (llvm_algorithms.py 72-125) in a block; the branches give the next block or the end. `gt` is the
signed or ordered "greater" of the element type. -/
def exec1 (gt : ε → ε → Bool) (n : BitVec 32) (s : Exec ε) (r : Nat) : Instr → PyM (Exec ε)
  | .phi _ => .ok s
  | .cmpLe a b => do
    let x ← opd32 n s.env a; let y ← opd32 n s.env b
    .ok { s with env := setReg s.env r (.i1 (x.sle y)) }
  | .cmpLt a b => do
    let x ← opd32 n s.env a; let y ← opd32 n s.env b
    .ok { s with env := setReg s.env r (.i1 (x.slt y)) }
  | .elemGt a b => do
    let x ← opdElem n s.env a; let y ← opdElem n s.env b
    .ok { s with env := setReg s.env r (.i1 (gt x y)) }
  | .elemLt a b => do
    let x ← opdElem n s.env a; let y ← opdElem n s.env b
    .ok { s with env := setReg s.env r (.i1 (gt y x)) }
  | .add a b => do
    let x ← opd32 n s.env a; let y ← opd32 n s.env b
    .ok { s with env := setReg s.env r (.i32 (x + y)) }
  | .sub a b => do
    let x ← opd32 n s.env a; let y ← opd32 n s.env b
    .ok { s with env := setReg s.env r (.i32 (x - y)) }
  | .sext a => do
    let x ← opd32 n s.env a
    .ok { s with env := setReg s.env r (.i64 (x.signExtend 64)) }
  | .gep a b => do
    match ← opd n s.env a, ← opd n s.env b with
    | .ptr k, .i64 x => .ok { s with env := setReg s.env r (.ptr (k + x.toInt)) }
    | _, _ => .error .undefined
  | .load p => do
    let k ← opdPtr n s.env s.mem p
    let x ← rd s.mem k
    .ok { s with env := setReg s.env r (.elem x) }
  | .store v p => do
    let x ← opdElem n s.env v
    let k ← opdPtr n s.env s.mem p
    let m ← wr s.mem k x
    .ok { s with mem := m }
  | .br l => .ok { s with pred := s.cur, cur := l }
  | .cbr c l₁ l₂ => do
    match ← opd n s.env c with
    | .i1 b => .ok { s with pred := s.cur, cur := if b then l₁ else l₂ }
    | _ => .error .undefined
  | .ret => .ok { s with done := true }

/-- The instructions of a block, in order (llvm_algorithms.py 45-127). -/
def execAll (gt : ε → ε → Bool) (n : BitVec 32) : List (Nat × Instr) → Exec ε → PyM (Exec ε)
  | [], s => .ok s
  | e :: b, s => do
    let s ← exec1 gt n s e.1 e.2
    execAll gt n b s

/-- One basic block (llvm_algorithms.py 45-127): its phi nodes, then its instructions. -/
def execBlock (gt : ε → ε → Bool) (n : BitVec 32) (f : Fn) (s : Exec ε) : PyM (Exec ε) := do
  match f[s.cur]? with
  | none => .error .undefined
  | some b => do
    let env ← phis n s.env s.pred b s.env
    execAll gt n b { s with env := env }

/-- `fn(buf.data(), (int32_t) buf.size())` (quadratic_time_sort.hpp 333-340): the array afterwards. -/
def call (gt : ε → ε → Bool) (f : Fn) (fuel : Nat) (mem : List ε) (n : BitVec 32) : PyM (List ε) := do
  let s ← whileLoop fuel (fun s : Exec ε => .ok !s.done) (execBlock gt n f) ⟨fun _ => none, mem, 0, 0, false⟩
  .ok s.mem

end Model.Llvm
