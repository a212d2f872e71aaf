import Verif.Model.Token

/-! # Event flags (`/repo/src/event/flag.rs`) -/

namespace Yary

/-- `/repo/src/event/flag.rs:94-104`: the `bitflags!` struct `Flags: u32`. Simplification: any 32
bits, also those that the safe constructors of `bitflags` do not produce. -/
abbrev Flags := BitVec 32

namespace Flags

/-- `/repo/src/event/flag.rs:30`: `O_NIL`. -/
def nilFlags : Flags := 0#32
/-- `/repo/src/event/flag.rs:54,102`: `O_LAZY`. -/
def lazyFlag : Flags := 1#32

/-- `bitflags`: `union`. -/
def union (a b : Flags) : Flags := a ||| b
/-- `bitflags`: `difference`. -/
def difference (a b : Flags) : Flags := a &&& ~~~b
/-- `bitflags`: `contains`. -/
def contains (a b : Flags) : Bool := a &&& b == b

/-- `/repo/src/event/flag.rs:59-62`: `Flags::new`. -/
def new : Flags := nilFlags
/-- `/repo/src/event/flag.rs:65-68`: `Flags::nil`. -/
def nil (_ : Flags) : Flags := nilFlags
/-- `/repo/src/event/flag.rs:71-74`: `Flags::lazy`. -/
def lazy (f : Flags) : Flags := f.union lazyFlag
/-- `/repo/src/event/flag.rs:77-80`: `Flags::no_lazy`. -/
def noLazy (f : Flags) : Flags := f.difference lazyFlag

/-- `/repo/src/event/flag.rs:84-96`: `as_scanner`. -/
def asScanner (f : Flags) : SFlags :=
  let flags : SFlags := {}
  if f.contains lazyFlag then { flags with lazy := true } else flags

end Flags

end Yary
