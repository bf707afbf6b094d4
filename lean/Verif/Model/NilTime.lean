import Verif.Model.Consensus

/-
Model of the comparisons of /repo/src/util/consensus_util.go:82-128 and :152-266 for variables that may be nil in every way.
-/

namespace Poodle

/-- A variable of type `IConsensusTime`, /repo/src/util/consensus_util.go:16-24: nothing, a nil pointer to one of the implementations (:67-69,
:133-137), or a time. -/
inductive TimeVar where
  | nothing
  | nilLedger
  | nilRaft
  | time (t : CTime)
deriving DecidableEq, Repr

/-- The comparisons, /repo/src/util/consensus_util.go:16-24. -/
inductive TimeCmp where
  | gt | ge | eq | ne | lt | le
deriving DecidableEq, Repr

/-- A comparison of two times, /repo/src/util/consensus_util.go:82-128 and :152-266. -/
def TimeCmp.run (a : CTime) (b : Option CTime) : TimeCmp → Res Bool
  | .gt => a.gt b
  | .ge => a.ge b
  | .eq => a.eq b
  | .ne => a.ne b
  | .lt => a.lt b
  | .le => a.le b

/-- The type assertion `ict.(*LedgerTime)`, /repo/src/util/consensus_util.go:83, :91, :99, :107, :115, :123: it succeeds for nil pointers. -/
def TimeVar.isLedger : TimeVar → Bool
  | .nilLedger | .time (.ledger _) => true
  | .nothing | .nilRaft | .time (.raft ..) => false

/-- The type assertion `ict.(*RaftTime)`, /repo/src/util/consensus_util.go:153, :176, :199, :211, :223, :246: it succeeds for nil pointers. -/
def TimeVar.isRaft : TimeVar → Bool
  | .nilRaft | .time (.raft ..) => true
  | .nothing | .nilLedger | .time (.ledger _) => false

/-- `a.GT(b)` and so on, /repo/src/util/consensus_util.go:82-128 and :152-266.  On a nil pointer the method is entered; its fields, and those of a nil
pointer as argument, are read if the types are the same, which panics. -/
def TimeCmp.call (c : TimeCmp) (a b : TimeVar) : Res Bool :=
  match a with
  | .nothing => .panic
  | .nilLedger => if b.isLedger then .panic else .err
  | .nilRaft => if b.isRaft then .panic else .err
  | .time (.ledger e) =>
    if b.isLedger then
      match b with
      | .time t => c.run (.ledger e) (some t)
      | _ => .panic
    else .err
  | .time (.raft t m n) =>
    if b.isRaft then
      match b with
      | .time t' => c.run (.raft t m n) (some t')
      | _ => .panic
    else .err

end Poodle
