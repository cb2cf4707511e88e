/-!
Model of `src/mdd/node_flags.rs`: the compact set of flags attached to a node of a decision diagram.
A `u8` is a `BitVec 8`, all operations are the bitwise operations of the source.
-/
set_option autoImplicit false

namespace Verif

/-- `src/mdd/node_flags.rs:48` `pub struct NodeFlags(u8)` -/
structure NodeFlags where
  bits : BitVec 8
deriving DecidableEq, Repr

namespace NodeFlags

/-- `src/mdd/node_flags.rs:51` -/
def F_EXACT : BitVec 8 := 1#8
/-- `src/mdd/node_flags.rs:53` -/
def F_RELAXED : BitVec 8 := 2#8
/-- `src/mdd/node_flags.rs:55` -/
def F_MARKED : BitVec 8 := 4#8
/-- `src/mdd/node_flags.rs:57` -/
def F_CUTSET : BitVec 8 := 8#8
/-- `src/mdd/node_flags.rs:59` -/
def F_DELETED : BitVec 8 := 16#8
/-- `src/mdd/node_flags.rs:61` -/
def F_BARRIER : BitVec 8 := 32#8

/-- `src/mdd/node_flags.rs:148-150` -/
def test (f : NodeFlags) (mask : BitVec 8) : Bool := f.bits &&& mask == mask
/-- `src/mdd/node_flags.rs:162-164` -/
def add (f : NodeFlags) (flags : BitVec 8) : NodeFlags := ⟨f.bits ||| flags⟩
/-- `src/mdd/node_flags.rs:167-169` -/
def remove (f : NodeFlags) (flags : BitVec 8) : NodeFlags := ⟨f.bits &&& ~~~flags⟩
/-- `src/mdd/node_flags.rs:153-159` -/
def set (f : NodeFlags) (flag : BitVec 8) (value : Bool) : NodeFlags :=
  if value then f.add flag else f.remove flag

/-- `src/mdd/node_flags.rs:76-78` -/
def newExact : NodeFlags := ⟨F_EXACT⟩
/-- `src/mdd/node_flags.rs:81-83` -/
def newRelaxed : NodeFlags := ⟨F_RELAXED⟩
/-- `src/mdd/node_flags.rs:67-73` -/
def new (relaxed : Bool) : NodeFlags := if relaxed then newRelaxed else newExact
/-- `src/mdd/node_flags.rs:171-176` -/
instance : Inhabited NodeFlags := ⟨newExact⟩

/-- `src/mdd/node_flags.rs:86-88` -/
def isExact (f : NodeFlags) : Bool := f.test F_EXACT && !f.test F_RELAXED
/-- `src/mdd/node_flags.rs:91-93` -/
def isRelaxed (f : NodeFlags) : Bool := f.test F_RELAXED
/-- `src/mdd/node_flags.rs:96-98` -/
def isMarked (f : NodeFlags) : Bool := f.test F_MARKED
/-- `src/mdd/node_flags.rs:102-104` -/
def isCutset (f : NodeFlags) : Bool := f.test F_CUTSET
/-- `src/mdd/node_flags.rs:107-109` -/
def isDeleted (f : NodeFlags) : Bool := f.test F_DELETED
/-- `src/mdd/node_flags.rs:112-114` -/
def isPrunedByBarrier (f : NodeFlags) : Bool := f.test F_BARRIER
/-- `src/mdd/node_flags.rs:117-119` -/
def setExact (f : NodeFlags) (b : Bool) : NodeFlags := f.set F_EXACT b
/-- `src/mdd/node_flags.rs:122-124` -/
def setRelaxed (f : NodeFlags) (b : Bool) : NodeFlags := f.set F_RELAXED b
/-- `src/mdd/node_flags.rs:127-129` -/
def setMarked (f : NodeFlags) (b : Bool) : NodeFlags := f.set F_MARKED b
/-- `src/mdd/node_flags.rs:132-134` -/
def setCutset (f : NodeFlags) (b : Bool) : NodeFlags := f.set F_CUTSET b
/-- `src/mdd/node_flags.rs:137-139` -/
def setDeleted (f : NodeFlags) (b : Bool) : NodeFlags := f.set F_DELETED b
/-- `src/mdd/node_flags.rs:142-144` -/
def setPrunedByBarrier (f : NodeFlags) (b : Bool) : NodeFlags := f.set F_BARRIER b

end NodeFlags
end Verif
