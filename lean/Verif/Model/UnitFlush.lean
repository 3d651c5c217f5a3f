import Verif.Model.TextDevice

/-!
Model of the format `unit_flush` (`io/format/utility/unit_flush.hpp`, `io/utility/flush.hpp`) on a buffered device: every unit is followed by a flush.
-/

namespace Actl.UnitFlush

open Actl.Text Actl.Buffered

/-- `encode(unit_flush&, x)`, `unit_flush.hpp:19-22`, is `batch{x, flush_t{}}`: the calls of `x` on the device, then `flush_t::operator()`,
`flush.hpp:15-18`, called by `write_final`, `io/argument/function.hpp:13-17`.  A buffered device reports no failure, so the flush is always reached
(`batch.hpp:23-26`). -/
def writeUnit (w : Writer) (calls : List WOp) : Writer := (calls ++ [WOp.flush]).foldl Writer.step w

/-- `write(od, unit_flush{}, x, y, ...)`, `io.hpp:35-38`: the units one after the other, each given by its calls. -/
def writeUnits (w : Writer) (units : List (List WOp)) : Writer := units.foldl writeUnit w

/-- A buffered device at the end of a chain of formats whose last one is `unit_flush`: separators, numbers, strings and characters
are units (`composed_format.hpp:35-41`, `batch.hpp:49-51`), so a flush follows every call.  Simplified: a tuple or a range is a unit, too, and is followed by one more flush; it finds
the buffer empty and changes nothing (`flush_empty`). -/
def flushedPort : TextTree.Port Writer := fun w op => some (true, writeUnit w [op])

/-- The same for binary values: every number is one call with the span of its bytes, `format/binary/binary.hpp:27-32`, and a flush. -/
def flushedSink : TextTree.Sink Writer := fun w s => some (true, writeUnit w [.write s])

end Actl.UnitFlush
