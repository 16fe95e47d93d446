/-!
# The virtual machine (src/lib/vm.cpp)

Function-by-function model of the search VM.  Pointers into the program are
indices; the null program counter of a dead thread is `none`.

* Reading an instruction, an operand word, `MatchEnds` or one of the sparse
  sets outside its bounds is the outcome `Res.ub`.
* The C++ loops over epsilon instructions may diverge on arbitrary programs;
  the model takes fuel and running out is the outcome `Res.fuel`.
* Offsets are natural numbers (no wrap at 2^64); `Thread::NONE` (2^64-1) is
  `none`, and `tEnd + 1` for `NONE` is 0 as in C++.
* The sparse sets `CheckLabels` and `Live` are lists of their members; the
  implementation of the sparse set is verified separately (SparseSet.lean).
-/
namespace Verif.Vm

/-- Outcome of a step: value, undefined behaviour, or fuel exhausted. -/
inductive Res (α : Type) where
  | ok (a : α)
  | ub
  | fuel
deriving Repr, DecidableEq

/-- Sequencing of outcomes. -/
def Res.bind {α β : Type} (x : Res α) (f : α → Res β) : Res β :=
  match x with
  | .ok a => f a
  | .ub => .ub
  | .fuel => .fuel

instance : Monad Res where
  pure := Res.ok
  bind := Res.bind

@[simp] theorem bind_ok {α β : Type} (a : α) (f : α → Res β) : (Res.ok a >>= f) = f a := rfl
@[simp] theorem bind_ub {α β : Type} (f : α → Res β) : ((Res.ub : Res α) >>= f) = .ub := rfl
@[simp] theorem bind_fuel {α β : Type} (f : α → Res β) : ((Res.fuel : Res α) >>= f) = .fuel := rfl
@[simp] theorem pure_ok {α : Type} (a : α) : (pure a : Res α) = .ok a := rfl

/-- If a sequence succeeds its first part does. -/
theorem bind_eq_ok {α β : Type} {x : Res α} {f : α → Res β} {b : β} :
    (x >>= f) = .ok b ↔ ∃ a, x = .ok a ∧ f a = .ok b := by
  cases x <;> simp

/-- Decoded instructions, include/instructions.h:24-39. -/
inductive Op where
  | jumpTable (first last : Nat)
  | byte (b : Nat) (neg : Bool)
  | bitVector
  | either (a b : Nat) (neg : Bool)
  | range (a b : Nat) (neg : Bool)
  | any
  | finish
  | fork
  | jump
  | checkHalt (i : Nat)
  | label (l : Nat)
  | «match»
  | halt
  | other
deriving Repr, DecidableEq

/-- Layout of a 4-byte instruction (include/instructions.h:47-74, packed,
little-endian): byte 0 opcode, bytes 1-3 the operand union (24-bit offset, or
flags/byte, or flags/first/last). -/
def decode (w : Nat) : Op :=
  let b1 := w / 256 % 256
  let b2 := w / 65536 % 256
  let b3 := w / 16777216 % 256
  let off := w / 256 % 16777216
  let neg := b1 % 2 == 1
  match w % 256 with
  | 0 => .jumpTable b2 b3
  | 1 => .byte b2 neg
  | 2 => .bitVector
  | 3 => .either b2 b3 neg
  | 4 => .range b2 b3 neg
  | 5 => .any
  | 6 => .finish
  | 7 => .fork
  | 8 => .jump
  | 9 => .checkHalt off
  | 10 => .label off
  | 11 => .match
  | 12 => .halt
  | _ => .other

/-- The parts of include/program.h:28-158 used by the VM: instruction words,
`MaxLabel`, `MaxCheck`, `FilterOff` and the 65536-bit filter. -/
structure Program where
  code : List Nat
  maxLabel : Nat
  maxCheck : Nat
  filterOff : Nat
  filter : Nat → Bool

/-- The instruction at an index. -/
def opAt (P : Program) (pc : Nat) : Option Op := (P.code[pc]?).map decode

/-- include/thread.h:23-94. -/
structure Thread where
  pc : Nat
  start : Nat
  «end» : Option Nat
  label : Option Nat
  lead : Bool
deriving Repr, DecidableEq

/-- A reported hit, include/lightgrep/search_hit.h. -/
structure Hit where
  start : Nat
  «end» : Nat
  label : Nat
deriving Repr, DecidableEq

/-- The mutable members of `Vm` (include/vm.h:114-130).  `active` holds the
threads of `Active` that have not been executed yet in the current frame (the
executed ones are not looked at again before `_cleanup`).  `log` is the list of
callback invocations, oldest first. -/
structure St where
  active : List Thread
  next : List Thread
  checks : List Nat
  liveNone : Bool
  live : List Nat
  matchEnds : List Nat
  matchEndsMax : Nat
  log : List Hit
deriving Repr, DecidableEq

/-- `tEnd + 1` in 64-bit arithmetic for `Thread::NONE`. -/
def endPlus (e : Option Nat) : Nat :=
  match e with
  | none => 0
  | some x => x + 1

/-- src/lib/vm.cpp:181-188 `_markLive` followed by `Next.push_back(*t)`
(src/lib/vm.cpp:320-321, 395-396). -/
def pushLive (t : Thread) (σ : St) : Res St :=
  match t.label with
  | none => .ok { σ with liveNone := true, next := σ.next ++ [t] }
  | some l =>
    if l < σ.matchEnds.length then
      .ok { σ with live := if σ.live.contains l then σ.live else l :: σ.live,
                   next := σ.next ++ [t] }
    else .ub

/-- src/lib/vm.cpp:190-242 `_execute`: consume one byte. `none` means the
thread dies. -/
def exec (P : Program) (t : Thread) (b : UInt8) : Res (Option Thread) :=
  let c := b.toNat
  match opAt P t.pc with
  | none => .ub
  | some op =>
    match op with
    | .jumpTable first last =>
      if first ≤ c ∧ c ≤ last then
        match P.code[t.pc + 1 + (c - first)]? with
        | none => .ub
        | some addr => if addr ≠ 0 then .ok (some { t with pc := addr }) else .ok none
      else .ok none
    | .byte x neg => if (c == x) ^^ neg then .ok (some { t with pc := t.pc + 1 }) else .ok none
    | .bitVector =>
      match P.code[t.pc + 1 + c / 32]? with
      | none => .ub
      | some w => if w / 2 ^ (c % 32) % 2 = 1 then .ok (some { t with pc := t.pc + 9 }) else .ok none
    | .either x y neg =>
      if (c == x || c == y) ^^ neg then .ok (some { t with pc := t.pc + 1 }) else .ok none
    | .range x y neg =>
      if (decide (x ≤ c) && decide (c ≤ y)) ^^ neg then .ok (some { t with pc := t.pc + 1 })
      else .ok none
    | .any => .ok (some { t with pc := t.pc + 1 })
    | .finish => .ok (some t)
    | _ => .ok none

/-- Membership test in the `Live` sparse set, out of bounds for labels above
`MaxLabel` and for `NOLABEL`. -/
def liveFind (σ : St) (l : Option Nat) : Res Bool :=
  match l with
  | none => .ub
  | some l => if l < σ.matchEnds.length then .ok (σ.live.contains l) else .ub

/-- `!LiveNoLabel && !Live.find(label)` with its short-circuit
(src/lib/vm.cpp:293 and 371). -/
def unblocked (σ : St) (l : Option Nat) : Res Bool :=
  if σ.liveNone then .ok false
  else match liveFind σ l with
    | .ok b => .ok (!b)
    | .ub => .ub
    | .fuel => .fuel

/-- src/lib/vm.cpp:244-255 `_liveCheck`. -/
def liveCheck (σ : St) (start : Nat) (label : Option Nat) : Res Bool :=
  match label with
  | none => .ok (!σ.next.isEmpty || decide (start < σ.matchEndsMax))
  | some l => if σ.liveNone then .ok true else liveFind σ (some l)

/-- `ProgEnd`, src/lib/vm.cpp:124: the penultimate instruction. -/
def progEnd (P : Program) : Nat := P.code.length - 2

/-- src/lib/vm.cpp:269-291: after a match ending here, send competing later
threads to the halt instruction. -/
def kill (P : Program) (t : Thread) (off : Nat) (rest : List Thread) : List Thread :=
  let die (i : Thread) : Thread := if i.label = t.label then { i with pc := progEnd P } else i
  if t.end = some off then
    if t.lead then rest.map die
    else (rest.takeWhile (fun i => i.start == t.start)).map die ++
         rest.dropWhile (fun i => i.start == t.start)
  else rest

/-- src/lib/vm.cpp:263-311: the FINISH case of `_executeEpsilon`.  Returns the
thread if it keeps waiting. -/
def finishStep (P : Program) (cb : Bool) (off : Nat) (t : Thread) (σ : St) :
    Res (Option Thread × St) := do
  let σ := { σ with active := kill P t off σ.active }
  let u ← unblocked σ t.label
  if u then
    match t.label with
    | none => .ub
    | some l =>
      match σ.matchEnds[l]? with
      | none => .ub
      | some m =>
        if m ≤ t.start then
          let e := endPlus t.end
          .ok (none, { σ with
            matchEnds := σ.matchEnds.set l e
            matchEndsMax := if σ.matchEndsMax < e then e else σ.matchEndsMax
            log := if cb then σ.log ++ [⟨t.start, e, l⟩] else σ.log })
        else .ok (none, σ)
  else .ok (some t, σ)

/-- src/lib/vm.cpp:404-407: the overlap check at the head of
`_executeEpSequence`, then the loop `k`. -/
def overlapGuard (k : Thread → St → Res (Option Thread × St)) (t : Thread) (σ : St) :
    Res (Option Thread × St) :=
  match t.label with
  | none => k t σ
  | some l =>
    match σ.matchEnds[l]? with
    | none => .ub
    | some m => if t.start < m then .ok (none, σ) else k t σ

/-- src/lib/vm.cpp:258-381 `_executeEpsilon`, looped as in
src/lib/vm.cpp:429 (`while (_executeEpsilon(...))`).  The result is the thread
if its program counter is not null at the end of the loop. -/
def epLoop (P : Program) (cb : Bool) (off : Nat) : Nat → Thread → St → Res (Option Thread × St)
  | 0, _, _ => .fuel
  | n + 1, t, σ =>
    match opAt P t.pc with
    | none => .ub
    | some op =>
      match op with
      | .finish => finishStep P cb off t σ
      | .fork => do
        -- recurse to keep going in sequence
        let (r, σ) ← overlapGuard (epLoop P cb off n) { t with pc := t.pc + 2 } σ
        let σ ← (match r with
          | some t' => pushLive t' σ
          | none => .ok σ)
        -- the child takes the jump
        match P.code[t.pc + 1]? with
        | none => .ub
        | some a => epLoop P cb off n { t with pc := a } σ
      | .jump =>
        match P.code[t.pc + 1]? with
        | none => .ub
        | some a => epLoop P cb off n { t with pc := a } σ
      | .checkHalt i =>
        if i < P.maxCheck + 1 then
          if σ.checks.contains i then .ok (none, σ)
          else do
            let blocked ← liveCheck σ t.start t.label
            let σ := if blocked then σ else { σ with checks := i :: σ.checks }
            epLoop P cb off n { t with pc := t.pc + 1 } σ
        else .ub
      | .label l =>
        match σ.matchEnds[l]? with
        | none => .ub
        | some m =>
          if m ≤ t.start then epLoop P cb off n { t with label := some l, pc := t.pc + 1 } σ
          else .ok (none, σ)
      | .match => do
        let u ← unblocked σ t.label
        epLoop P cb off n { t with «end» := some off, pc := t.pc + 1, lead := u } σ
      | .halt => .ok (none, σ)
      | _ => .ok (some t, σ)

/-- src/lib/vm.cpp:401-433 `_executeEpSequence`. -/
def epSeq (P : Program) (cb : Bool) (off fuel : Nat) (t : Thread) (σ : St) :
    Res (Option Thread × St) :=
  overlapGuard (epLoop P cb off fuel) t σ

/-- src/lib/vm.cpp:383-399 `_executeThread`. -/
def execThread (P : Program) (cb : Bool) (fuel off : Nat) (b : UInt8) (t : Thread) (σ : St) :
    Res St := do
  match ← exec P t b with
  | none => .ok σ
  | some t' =>
    let (r, σ) ← epSeq P cb off fuel t' σ
    match r with
    | none => .ok σ
    | some t'' => pushLive t'' σ

/-- The loop over `Active` (src/lib/vm.cpp:462-465, 452-455, 544-546,
634-637): `n` threads remain. -/
def runActive (P : Program) (cb : Bool) (fuel off : Nat) (b : UInt8) : Nat → St → Res St
  | 0, σ => .ok σ
  | n + 1, σ =>
    match σ.active with
    | [] => .ok σ
    | t :: rest => do
      let σ ← execThread P cb fuel off b t { σ with active := rest }
      runActive P cb fuel off b n σ

/-- src/lib/vm.cpp:438-444: a thread created at `offset` for each initial
thread. -/
def newThreads (first : List Thread) (off : Nat) : List Thread :=
  first.map (fun t => { pc := t.pc, start := off, «end» := none, label := none, lead := false })

/-- src/lib/vm.cpp:491-499 `_cleanup`. -/
def cleanup (σ : St) : St :=
  { σ with active := σ.next, next := [], checks := [], liveNone := false, live := [] }

/-- src/lib/vm.cpp:458-489 `_executeFrame` (both overloads) followed by
`_cleanup`; `spawn` says whether new threads are created (always, or as the
filter says). -/
def frame (P : Program) (first : List Thread) (cb : Bool) (fuel off : Nat) (b : UInt8)
    (spawn : Bool) (σ : St) : Res St := do
  let σ ← runActive P cb fuel off b σ.active.length σ
  let σ ← (if spawn then
      runActive P cb fuel off b first.length { σ with active := newThreads first off }
    else .ok σ)
  .ok (cleanup σ)

/-- src/lib/vm.cpp:561-573 `_startOfLeftmostLiveThread`. -/
def leftmostLive (P : Program) (off : Nat) : List Thread → Res Nat
  | [] => .ok off
  | t :: ts =>
    match opAt P t.pc with
    | none => .ub
    | some .halt => leftmostLive P off ts
    | some .finish => leftmostLive P off ts
    | some _ => .ok t.start

/-- The filter decision for the bytes from the current position to the end of
the buffer: src/lib/vm.cpp:581, 586 and 468 (a little-endian 16-bit load).
Positions with fewer than `FilterOff + 2` bytes left always spawn (line 600). -/
def spawnHere (P : Program) (rest : List UInt8) : Bool :=
  if P.filterOff + 1 < rest.length then
    match rest[P.filterOff]?, rest[P.filterOff + 1]? with
    | some lo, some hi => P.filter (lo.toNat + 256 * hi.toNat)
    | _, _ => true
  else true

/-- The two loops of src/lib/vm.cpp:586-612, over the bytes left. -/
def searchLoop (P : Program) (first : List Thread) (cb : Bool) (fuel : Nat) :
    List UInt8 → Nat → St → Res St
  | [], _, σ => .ok σ
  | b :: bs, off, σ => do
    let σ ← frame P first cb fuel off b (spawnHere P (b :: bs)) σ
    searchLoop P first cb fuel bs (off + 1) σ

/-- src/lib/vm.cpp:575-618 `search`. -/
def search (P : Program) (first : List Thread) (cb : Bool) (fuel : Nat) (buf : List UInt8)
    (off : Nat) (σ : St) : Res (Nat × St) := do
  let σ ← searchLoop P first cb fuel buf off σ
  let r ← leftmostLive P (off + buf.length) σ.active
  .ok (r, σ)

/-- `hadRealOps |= ...` over the active list, src/lib/vm.cpp:633-635.  (A
thread sent to `Halt` by an earlier thread of the same frame is looked at after
being redirected; see `resolveActive`.) -/
def isRealOp (P : Program) (t : Thread) : Res Bool :=
  match opAt P t.pc with
  | none => .ub
  | some .halt => .ok false
  | some .finish => .ok false
  | some _ => .ok true

/-- src/lib/vm.cpp:633-637: the inner loop of `searchResolve`. -/
def resolveActive (P : Program) (cb : Bool) (fuel off : Nat) (b : UInt8) :
    Nat → Bool → St → Res (Bool × St)
  | 0, h, σ => .ok (h, σ)
  | n + 1, h, σ =>
    match σ.active with
    | [] => .ok (h, σ)
    | t :: rest => do
      let r ← isRealOp P t
      let σ ← execThread P cb fuel off b t { σ with active := rest }
      resolveActive P cb fuel off b n (h || r) σ

/-- src/lib/vm.cpp:628-644: the outer loop of `searchResolve`; also returns the
offset reached. -/
def resolveLoop (P : Program) (cb : Bool) (fuel : Nat) :
    List UInt8 → Nat → Bool → St → Res (Nat × St)
  | [], off, _, σ => .ok (off, σ)
  | b :: bs, off, real, σ =>
    if σ.active.isEmpty || !real then .ok (off, σ)
    else do
      let (real, σ) ← resolveActive P cb fuel off b σ.active.length false σ
      resolveLoop P cb fuel bs (off + 1) real (cleanup σ)

/-- src/lib/vm.cpp:620-650 `searchResolve`. -/
def searchResolve (P : Program) (cb : Bool) (fuel : Nat) (buf : List UInt8) (off : Nat) (σ : St) :
    Res (Nat × St) := do
  let (o, σ) ← resolveLoop P cb fuel buf off true σ
  let r ← leftmostLive P o σ.active
  .ok (r, σ)

/-- src/lib/vm.cpp:662-674: the loop of `closeOut`. -/
def closeLoop (P : Program) : List Thread → St → Res St
  | [], σ => .ok σ
  | t :: ts, σ =>
    match opAt P t.pc with
    | none => .ub
    | some .finish =>
      match t.label with
      | none => .ub
      | some l =>
        match σ.matchEnds[l]? with
        | none => .ub
        | some m =>
          if m ≤ t.start then
            let e := endPlus t.end
            closeLoop P ts { σ with matchEnds := σ.matchEnds.set l e,
                                    log := σ.log ++ [⟨t.start, e, l⟩] }
          else closeLoop P ts σ
    | some _ => closeLoop P ts σ

/-- src/lib/vm.cpp:652-686 `closeOut`. -/
def closeOut (P : Program) (cb : Bool) (σ : St) : Res St :=
  if cb then closeLoop P σ.active σ else .ok σ

/-- src/lib/vm.cpp:162-179 `reset`. -/
def reset (σ : St) : St :=
  { active := [], next := [], checks := [], liveNone := false, live := [],
    matchEnds := List.replicate σ.matchEnds.length 0, matchEndsMax := 0, log := σ.log }

/-- The state when the constructor's body starts, src/lib/vm.cpp:125-129. -/
def preInit (P : Program) : St :=
  { active := [], next := [], checks := [], liveNone := false, live := [],
    matchEnds := List.replicate (P.maxLabel + 1) 0, matchEndsMax := 0, log := [] }

/-- src/lib/vm.cpp:119-160, the constructor: `First` and the initial state. -/
def create (P : Program) (fuel : Nat) : Res (List Thread × St) := do
  let t : Thread := { pc := 0, start := 0, «end» := none, label := none, lead := false }
  let (r, σ) ← epSeq P false 0 fuel t (preInit P)
  let first := match r with
    | some t' => σ.next ++ [t']
    | none => σ.next
  .ok (first, reset σ)

/-- src/lib/vm.cpp:543-554: the loop of `startsWith`. -/
def startsLoop (P : Program) (cb : Bool) (fuel : Nat) : List UInt8 → Nat → St → Res St
  | [], _, σ => .ok σ
  | b :: bs, off, σ => do
    let σ ← runActive P cb fuel off b σ.active.length σ
    let σ := cleanup σ
    if σ.active.isEmpty then .ok σ else startsLoop P cb fuel bs (off + 1) σ

/-- The condition of src/lib/vm.cpp:536-537. -/
def startsGate (P : Program) (buf : List UInt8) : Bool :=
  buf.length == 1 ||
  (decide (P.filterOff + 1 < buf.length) &&
    match buf[P.filterOff]?, buf[P.filterOff + 1]? with
    | some lo, some hi => P.filter (lo.toNat + 256 * hi.toNat)
    | _, _ => false)

/-- src/lib/vm.cpp:528-559 `startsWith`. -/
def startsWith (P : Program) (first : List Thread) (cb : Bool) (fuel : Nat) (buf : List UInt8)
    (off : Nat) (σ : St) : Res St :=
  if startsGate P buf then do
    let σ ← startsLoop P cb fuel buf off { σ with active := σ.active ++ newThreads first off }
    let σ ← closeOut P cb σ
    .ok (reset σ)
  else .ok σ

/-- A call on a context through the C API (include/lightgrep/api.h:170-250,
src/lib/lightgrep_c_api.cpp:443-538); `cb` says whether a callback was given. -/
inductive Call where
  | search (buf : List UInt8) (off : Nat) (cb : Bool)
  | resolve (buf : List UInt8) (off : Nat) (cb : Bool)
  | closeOut (cb : Bool)
  | startsWith (buf : List UInt8) (off : Nat) (cb : Bool)
  | reset
deriving Repr

/-- One API call: the returned value (for the calls that return one) and the
new state. -/
def step (P : Program) (first : List Thread) (fuel : Nat) (c : Call) (σ : St) :
    Res (Option Nat × St) :=
  match c with
  | .search buf off cb => do let (r, σ) ← search P first cb fuel buf off σ; .ok (some r, σ)
  | .resolve buf off cb => do let (r, σ) ← searchResolve P cb fuel buf off σ; .ok (some r, σ)
  | .closeOut cb => do let σ ← closeOut P cb σ; .ok (none, σ)
  | .startsWith buf off cb => do let σ ← startsWith P first cb fuel buf off σ; .ok (none, σ)
  | .reset => .ok (none, reset σ)

/-- A history of calls: the values returned, in order, and the final state. -/
def run (P : Program) (first : List Thread) (fuel : Nat) : List Call → St → Res (List (Option Nat) × St)
  | [], σ => .ok ([], σ)
  | c :: cs, σ => do
    let (r, σ) ← step P first fuel c σ
    let (rs, σ) ← run P first fuel cs σ
    .ok (r :: rs, σ)

end Verif.Vm
