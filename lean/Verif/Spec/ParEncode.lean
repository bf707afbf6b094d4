import Verif.Model.ParEncode
import Verif.Spec.ValueObj

/- Specification for `Encode` called by several goroutines. -/

namespace Poodle.Spec

/-- What an object is: a key, a value or a record. -/
abbrev Thing := KeyObj ⊕ Content

/-- The encoding of a key, value or record as a function of its content. -/
def thingEncode : Thing → Res Bytes
  | .inl k => keyPartBytes k
  | .inr c => contentEncode c

/-- The key that a record refers to, if it refers to one. -/
def thingKey (u : Nat → Option Thing) : Option Nat → Option (Option KeyObj)
  | none => some none
  | some i => ((u i).bind Sum.getLeft?).map some

/-- What an object is, provided that references are nested no deeper than the first argument. -/
def unfoldThing (S : List Shape) : Nat → Nat → Option Thing
  | 0, _ => none
  | f + 1, i =>
    match S[i]? with
    | none => none
    | some .emptyKey => some (.inl .empty)
    | some (.mappedKey m) => some (.inl (.mapped m))
    | some (.key keys) => some (.inl (.key { encoded := false, keys := keys, buf := none, estBufSize := 0 }))
    | some (.prim d) => some (.inr (.inl (.prim d)))
    | some (.array l) => (unfoldAll (fun j => ((unfoldThing S f j).bind Sum.getRight?).bind Sum.getLeft?) l).map (.inr <| .inl <| .array ·)
    | some (.list l) => (unfoldAll (fun j => ((unfoldThing S f j).bind Sum.getRight?).bind Sum.getRight?) l).map (.inr <| .inl <| .records ·)
    | some (.record k v s t r r') =>
      (thingKey (unfoldThing S f) k).bind fun k =>
        (unfoldPart (fun j => (unfoldThing S f j).bind Sum.getRight?) v).bind fun v =>
          (unfoldPart (fun j => (unfoldThing S f j).bind Sum.getRight?) s).map fun s => .inr (.inr (.record k v s t r r'))
    | some (.mappedSimple c b) => some (.inr (.inl (.simple c b)))
    | some (.mappedStd d) => some (.inr (.inl (.std d)))
    | some (.mappedRec r) => some (.inr (.inr (.mapped r)))

/-- Object `i` is this key, value or record. -/
def Holds (S : List Shape) (i : Nat) (c : Thing) : Prop := ∃ f, unfoldThing S f i = some c

/-- What `Buf()` gives if it is called while no other call is made. -/
def bufNow (S : List Shape) (M : Cells) (i : Nat) : Res Bytes :=
  match S[i]? with
  | none => .panic
  | some .emptyKey => .ok [0x00]
  | some (.mappedKey m) => .ok m.getBuf
  | some (.mappedSimple _ b) => .ok b
  | some (.mappedStd d) => .ok d.buf
  | some (.mappedRec r) => .ok r.buf
  | some _ => if (M.at i).encoded then .ok (M.at i).buf else .panic

/-- Call `k`, on object `id`, has ended with this result. -/
def CallEnded (w : EncWorld) (k id : Nat) (c : EncCall) (r : Option (Res EncOut)) : Prop := w.tasks[k]? = some ⟨id, c, .ret r⟩

/-- What `Encode` has to return. -/
def encodeResult : Res Bytes → Option (Res EncOut)
  | .ok _ => some (.ok .done)
  | .err => some .err
  | .panic => some .panic

/-- The field of an object that a call is about to access, and whether it writes it. -/
def Prog.nextAccess {α : Type} : Prog α → Option (Nat × Bool × Bool)
  | .ret _ => none
  | .readFlag id _ => some (id, true, false)
  | .readBuf id _ => some (id, false, false)
  | .writeBuf id _ _ => some (id, false, true)
  | .writeFlag id _ => some (id, true, true)

/-- A data race: two calls are about to access the same field of the same object, and one of them writes it. -/
def EncRacing (w : EncWorld) : Prop :=
  ∃ (j k : Nat) (t u : EncTask) (id : Nat) (f b : Bool), j ≠ k ∧ w.tasks[j]? = some t ∧ w.tasks[k]? = some u ∧
    Prog.nextAccess t.prog = some (id, f, true) ∧ Prog.nextAccess u.prog = some (id, f, b)

/-- The objects that an object refers to. -/
def Shape.refs : Shape → List Nat
  | .array l => l
  | .list l => l
  | .record k v s _ _ _ => k.toList ++ v.toList ++ s.toList
  | _ => []

/-- The object was made by the program and is not mapped to a buffer. -/
def Shape.made : Shape → Bool
  | .key _ => true
  | .prim _ => true
  | .array _ => true
  | .list _ => true
  | .record .. => true
  | _ => false

/-- The object is an `IKey`. -/
def Shape.isKey : Shape → Bool
  | .emptyKey => true
  | .mappedKey _ => true
  | .key _ => true
  | _ => false

/-- The object is an `IRecord`. -/
def Shape.isRecord : Shape → Bool
  | .record .. => true
  | .mappedRec _ => true
  | _ => false

/-- The object is an `IValue`. -/
def Shape.isVal (n : Shape) : Bool := !Shape.isKey n && !Shape.isRecord n

/-- The object exists and satisfies the test. -/
def ShapeIs (S : List Shape) (f : Shape → Bool) (i : Nat) : Prop := ∃ n, S[i]? = some n ∧ f n = true

/-- The references have the static types of the Go program: elements of arrays are values, elements of lists are records, keys are keys,
values and schemes are values. -/
def WellTyped (S : List Shape) : Prop :=
  ∀ n ∈ S, match n with
    | .array l => ∀ j ∈ l, ShapeIs S Shape.isVal j
    | .list l => ∀ j ∈ l, ShapeIs S Shape.isRecord j
    | .record k v s _ _ _ => (∀ j ∈ k, ShapeIs S Shape.isKey j) ∧ (∀ j ∈ v, ShapeIs S Shape.isVal j) ∧
        ∀ j ∈ s, ShapeIs S Shape.isVal j
    | _ => True

/-- Object `j` is object `i` or nested in it. -/
def PartOf (S : List Shape) : Nat → Nat → Prop := Relation.ReflTransGen fun i j => ∃ n, S[i]? = some n ∧ j ∈ Shape.refs n

/-- How often call `k` was given a step. -/
def encSteps (k : Nat) (l : List EncEvent) : Nat := l.countP (fun e => e = .step k)

end Poodle.Spec
