import Verif.Model.Value

/-
Model of calls of `Encode`, `Buf` and `IsEncoded` by several goroutines at once on shared keys, values and records:
/repo/src/util/key_util.go:55-71, :193-213, :387-430, /repo/src/util/value_util.go:127-141, :376-390, :665-736, :849-936, :1088-1172 and
/repo/src/util/record_util.go:137-151, :357-364, :405-468.

A call is divided into steps.  Each step reads or writes one of the fields `encoded` and `buf` of one object, the only memory that these
calls change and that others can reach (the buffers under construction are local variables).  All other fields stay as they are while no
other calls are made.  Steps of different calls are interleaved in any order.  This is what Go promises for programs without data races,
and the least that can go wrong for the others.

Simplified: `magic` of a `Primitive` and the size estimates, which are assigned together with `buf`, are left out.
-/

namespace Poodle

/-- The fields of an object that the calls only read: `EmptyKey`, `MappedKey`, `Key` (/repo/src/util/key_util.go:35-36, :136-141,
:351-356), `Primitive`, `ValueArray`, `RecordList` (/repo/src/util/value_util.go:591-598, :772-779, :1011-1018), `Record`
(/repo/src/util/record_util.go:299-313), and what is mapped to a buffer (/repo/src/util/value_util.go:55-61, :189-200,
/repo/src/util/record_util.go:38-49).  A number refers to an object. -/
inductive Shape where
  | emptyKey
  | mappedKey (m : MappedKey)
  | key (keys : List Slice)
  | prim (data : Slice)
  | array (elems : List Nat)
  | list (elems : List Nat)
  | record (key value scheme : Option Nat) (timestamp sigR sigS : Option Int)
  | mappedSimple (content buf : Bytes)
  | mappedStd (d : StdValue)
  | mappedRec (r : RecInfo)

/-- The fields of an object that the calls change: `encoded` and `buf`, /repo/src/util/key_util.go:352, :354,
/repo/src/util/value_util.go:593-595, :774-775, :1013-1014, /repo/src/util/record_util.go:301-302.  Objects that are mapped to a buffer
have no such fields. -/
structure Cell where
  encoded : Bool
  buf : Bytes
deriving DecidableEq, Repr

/-- The changing fields of all objects.  (Go runtime; no file in /repo.) -/
abbrev Cells := List Cell

/-- What remains to be done of a call: the next access to a changing field and how the call goes on after it.  (Go runtime; the accesses
are at /repo/src/util/key_util.go:388, :392, :425, :427, /repo/src/util/value_util.go:667-671, :694-731, :851-855, :906-927, :1090-1094,
:1145-1164, /repo/src/util/record_util.go:359-363, :464-465.) -/
inductive Prog (α : Type) where
  /-- returned -/
  | ret (a : α)
  /-- about to read `encoded` -/
  | readFlag (id : Nat) (next : Bool → Prog α)
  /-- about to read `buf` -/
  | readBuf (id : Nat) (next : Bytes → Prog α)
  /-- about to assign `buf` -/
  | writeBuf (id : Nat) (b : Bytes) (next : Prog α)
  /-- about to set `encoded` -/
  | writeFlag (id : Nat) (next : Prog α)

/-- Statements one after the other.  (Go; no file in /repo.) -/
def Prog.bind {α β : Type} : Prog α → (α → Prog β) → Prog β
  | .ret a, k => k a
  | .readFlag id n, k => .readFlag id fun b => (n b).bind k
  | .readBuf id n, k => .readBuf id fun b => (n b).bind k
  | .writeBuf id w n, k => .writeBuf id w (n.bind k)
  | .writeFlag id n, k => .writeFlag id (n.bind k)

/-- Statements of which the later ones are executed if the first ones succeeded: `if err != nil { return err }`, as at
/repo/src/util/record_util.go:417-419. -/
def Prog.seq {α β : Type} (p : Prog (Option (Res α))) (k : α → Prog (Option (Res β))) : Prog (Option (Res β)) :=
  p.bind fun
    | some (.ok a) => k a
    | some .err => .ret (some .err)
    | some .panic => .ret (some .panic)
    | none => .ret none

/-- The end of `Encode` of an object made by the program: the result is stored, /repo/src/util/key_util.go:425-427,
/repo/src/util/value_util.go:694-731, :906-907, :916-917, :926-927, :1145-1146, :1154-1155, :1163-1164,
/repo/src/util/record_util.go:464-465. -/
def storeProg (id : Nat) : Res Bytes → Prog (Option (Res Unit))
  | .ok w => .writeBuf id w (.writeFlag id (.ret (some (.ok ()))))
  | .err => .ret (some .err)
  | .panic => .ret (some .panic)

/-- `Buf` of an object made by the program, /repo/src/util/key_util.go:387-393, /repo/src/util/value_util.go:665-672, :849-856, :1088-1095,
/repo/src/util/record_util.go:357-364. -/
def checkedBuf (id : Nat) : Prog (Option (Res Bytes)) :=
  .readFlag id fun e => if e then .readBuf id fun b => .ret (some (.ok b)) else .ret (some .panic)

/-- `Buf`, as in `checkedBuf`, or of an object that is mapped to a buffer, /repo/src/util/key_util.go:55-59, :193-198,
/repo/src/util/value_util.go:127-129, :376-378, /repo/src/util/record_util.go:137-139. -/
def bufProg (S : List Shape) (id : Nat) : Prog (Option (Res Bytes)) :=
  match S[id]? with
  | none => .ret (some .panic)
  | some .emptyKey => .ret (some (.ok [0x00]))
  | some (.mappedKey m) => .ret (some (.ok m.getBuf))
  | some (.mappedSimple _ b) => .ret (some (.ok b))
  | some (.mappedStd d) => .ret (some (.ok d.buf))
  | some (.mappedRec r) => .ret (some (.ok r.buf))
  | some _ => checkedBuf id

/-- `IsEncoded`, /repo/src/util/key_util.go:65-67, :207-209, :399-401, /repo/src/util/value_util.go:135-137, :384-386, :686-688, :866-868,
:1105-1107, /repo/src/util/record_util.go:145-147, :405-407. -/
def flagProg (S : List Shape) (id : Nat) : Prog (Option (Res Bool)) :=
  match S[id]? with
  | none => .ret (some .panic)
  | some .emptyKey | some (.mappedKey _) | some (.mappedSimple _ _) | some (.mappedStd _) | some (.mappedRec _) => .ret (some (.ok true))
  | some _ => .readFlag id fun e => .ret (some (.ok e))

/-- `IsEmpty` of a key, /repo/src/util/key_util.go:42-44, :159-169, :370-372, or `IsNil` of a value, /repo/src/util/value_util.go:80-82,
:225-227, :610-612, :791-793, :1030-1032. -/
def Shape.absent : Shape → Bool
  | .emptyKey => true
  | .mappedKey m => m.isEmpty
  | .key keys => keys.isEmpty
  | .prim data => data.bytes.length == 0
  | .array elems => elems.length == 0
  | .list elems => elems.length == 0
  | .mappedSimple content _ => content.length == 0
  | .mappedStd d => d.isNil
  | .record .. => false
  | .mappedRec _ => false

/-- The loop over the elements in `ValueArray.Encode`, /repo/src/util/value_util.go:894-901, and `RecordList.Encode`, :1132-1140. -/
def elemsProg (S : List Shape) (enc : Nat → Prog (Option (Res Unit))) : List Nat → Prog (Option (Res Bytes))
  | [] => .ret (some (.ok []))
  | i :: l => (enc i).seq fun _ => (bufProg S i).seq fun b => (elemsProg S enc l).seq fun bs => .ret (some (.ok (b ++ bs)))

/-- The key, value or scheme in `Record.Encode`, /repo/src/util/record_util.go:413-423, :425-435, :437-447: the bytes, if it is there. -/
def partProg (S : List Shape) (enc : Nat → Prog (Option (Res Unit))) : Option Nat → Prog (Option (Res (Option Bytes)))
  | none => .ret (some (.ok none))
  | some i =>
    match S[i]? with
    | none => .ret (some .panic)
    | some n =>
      if n.absent then .ret (some (.ok none))
      else (enc i).seq fun _ => (bufProg S i).seq fun b => .ret (some (.ok (some b)))

/-- `Encode`, /repo/src/util/key_util.go:69-71, :211-213, :403-430, /repo/src/util/value_util.go:139-141, :388-390, :690-736, :870-936,
:1109-1172, /repo/src/util/record_util.go:149-151, :409-468.  The first number bounds the depth of the recursion; `none` stands for reaching
this bound. -/
def encodeProg (S : List Shape) : Nat → Nat → Prog (Option (Res Unit))
  | 0, _ => .ret none
  | f + 1, id =>
    match S[id]? with
    | none => .ret (some .panic)
    | some .emptyKey => .ret (some (.ok ()))
    | some (.mappedKey _) => .ret (some (.ok ()))
    | some (.key keys) => storeProg id (keyPartBytes (.key { encoded := false, keys := keys, buf := none, estBufSize := 0 }))
    | some (.prim data) => storeProg id (encodePrimitive data)
    | some (.array elems) =>
      match countHeader 6 elems.length with
      | .ok (m, c) => (elemsProg S (encodeProg S f) elems).seq fun content => storeProg id (withContent m c content)
      | .err => .ret (some .err)
      | .panic => .ret (some .panic)
    | some (.list elems) =>
      match countHeader 4 elems.length with
      | .ok (m, c) => (elemsProg S (encodeProg S f) elems).seq fun content => storeProg id (withContent m c content)
      | .err => .ret (some .err)
      | .panic => .ret (some .panic)
    | some (.record key value scheme timestamp sigR sigS) =>
      (partProg S (encodeProg S f) key).seq fun o1 =>
        (partProg S (encodeProg S f) value).seq fun o2 =>
          (partProg S (encodeProg S f) scheme).seq fun o3 =>
            let (m4, b4) := timePart timestamp sigR sigS
            let m1 := if o1.isSome then (0x01 : UInt8) <<< 6 else 0
            let m2 := if o2.isSome then (0x01 : UInt8) <<< 5 else 0
            let m3 := if o3.isSome then (0x01 : UInt8) <<< 4 else 0
            storeProg id (.ok ((0x00 ||| m1 ||| m2 ||| m3 ||| m4) :: (o1.getD [] ++ o2.getD [] ++ o3.getD [] ++ b4)))
    | some (.mappedSimple _ _) => .ret (some .err)
    | some (.mappedStd _) => .ret (some .err)
    | some (.mappedRec _) => .ret (some .err)

/-- The calls, /repo/src/util/encodable.go:10-51. -/
inductive EncCall where
  | encode (depth : Nat)
  | buf
  | isEncoded
deriving DecidableEq, Repr

/-- What the calls return, /repo/src/util/encodable.go:10-51. -/
inductive EncOut where
  | done
  | bytes (b : Bytes)
  | flag (b : Bool)
deriving DecidableEq, Repr

/-- A call on object `id` before its first step, /repo/src/util/encodable.go:10-51. -/
def EncCall.prog (S : List Shape) (id : Nat) : EncCall → Prog (Option (Res EncOut))
  | .encode depth => (encodeProg S depth id).seq fun _ => .ret (some (.ok .done))
  | .buf => (bufProg S id).seq fun b => .ret (some (.ok (.bytes b)))
  | .isEncoded => (flagProg S id).seq fun b => .ret (some (.ok (.flag b)))

/-- The fields of an object; it is there as long as the call is one that Go can make.  (Go runtime; no file in /repo.) -/
def Cells.at (M : Cells) (id : Nat) : Cell := M[id]?.getD { encoded := false, buf := [] }

/-- The next step of a call.  (Go runtime; the accesses are at the lines cited for `Prog`, e.g. /repo/src/util/key_util.go:425-427.) -/
def Prog.step {α : Type} (M : Cells) : Prog α → Cells × Prog α
  | .ret a => (M, .ret a)
  | .readFlag id n => (M, n (M.at id).encoded)
  | .readBuf id n => (M, n (M.at id).buf)
  | .writeBuf id b n => (M.set id { M.at id with buf := b }, n)
  | .writeFlag id n => (M.set id { M.at id with encoded := true }, n)

/-- A call that has begun.  (Go runtime; no file in /repo.) -/
structure EncTask where
  id : Nat
  call : EncCall
  prog : Prog (Option (Res EncOut))

/-- The changing fields and the calls made so far.  (Go runtime; no file in /repo.) -/
structure EncWorld where
  cells : Cells
  tasks : List EncTask

/-- What happens next: a call begins, or call number `k` makes a step.  (Go scheduler; no file in /repo.) -/
inductive EncEvent where
  | start (id : Nat) (c : EncCall)
  | step (k : Nat)
deriving DecidableEq, Repr

/-- One event.  (Go scheduler; no file in /repo.) -/
def EncEvent.run (S : List Shape) (w : EncWorld) : EncEvent → EncWorld
  | .start id c => ⟨w.cells, w.tasks ++ [⟨id, c, c.prog S id⟩]⟩
  | .step k =>
    match w.tasks[k]? with
    | some t => ⟨(t.prog.step w.cells).1, w.tasks.set k { t with prog := (t.prog.step w.cells).2 }⟩
    | none => w

/-- An execution.  (Go scheduler; no file in /repo.) -/
def encInterleave (S : List Shape) (w : EncWorld) (l : List EncEvent) : EncWorld := l.foldl (EncEvent.run S) w

end Poodle
