/-!
The 32-bit tail of `MutableBuffer::append`, MutableBuffer.h 61-89: the `int64_t` returned by `try_advance_tail` (232-250) is stored
in an `int32_t`, compared with -1 and, converted to `size_t`, reduced modulo the capacity. The rest of the model uses unbounded
positions.
-/

namespace DE.Tail32

/-- `int32_t tail = try_advance_tail()`, MutableBuffer.h 62-63 (conversion modulo 2^32, C++20). -/
def narrow (t : BitVec 64) : BitVec 32 := t.setWidth 32

/-- The slot written by the append that claimed position `t`, or `none` if it returns 0: MutableBuffer.h 63-75. The comparison
promotes both sides to `int`; in `tail % m_cap` the `int32_t` is converted to `size_t`, i.e. sign extended. -/
def slot (cap t : BitVec 64) : Option (BitVec 64) :=
  if narrow t = -1#32 then none else some ((narrow t).signExtend 64 % cap)

/-- The slot in which a view looks for position `t`: `to_idx`, BufferView.h 151 and `(m_head + i) % m_cap`, all in `size_t`. -/
def lookAt (cap t : BitVec 64) : BitVec 64 := t % cap

end DE.Tail32
