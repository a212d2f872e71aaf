import Verif.Model.Scan.Owned

/-! # Reading from a `std::io::Read`, with memory

`/repo/src/reader/owned.rs` a second time: buffers are blocks of memory, which can be moved and freed. `Model/Scan/Owned` has their
contents only. The code keeps them in an `UnsafeCell` (113, 127, 137-155, 160), so that it is not the compiler which checks that what
tokens borrow stays where it is. -/

namespace Yary

/-- Memory: the blocks that are allocated, with their contents; the next address; and whether a block was used after it had been freed,
or freed twice. Simplification: the address of a block is not used again. -/
structure Mem where
  block : Nat → Option Str := fun _ => none
  next : Nat := 0
  fault : Bool := false

/-- The pointer of a `Vec<u8>` or a `String`; one without contents has not been allocated (std). -/
abbrev Ptr := Option Nat

/-- Reading the contents of a buffer. -/
def Mem.load (m : Mem) : Ptr → Str × Mem
  | none => ([], m)
  | some a => match m.block a with
    | some s => (s, m)
    | none => ([], { m with fault := true })

/-- Dropping a buffer. -/
def Mem.free (m : Mem) : Ptr → Mem
  | none => m
  | some a => match m.block a with
    | some _ => { m with block := fun x => if x = a then none else m.block x }
    | none => { m with fault := true }

/-- A new block. -/
def Mem.alloc (m : Mem) (s : Str) : Ptr × Mem :=
  (some m.next, { m with block := fun x => if x = m.next then some s else m.block x, next := m.next + 1 })

/-- `Vec::push` (std): in place if there is room, otherwise in a new block. `room` says when there is. -/
def Mem.push (room : Mem → Nat → Bool) (m : Mem) (p : Ptr) (b : Byte) : Ptr × Mem :=
  match p with
  | none => m.alloc [b]
  | some a => match m.block a with
    | none => (p, { m with fault := true })
    | some s =>
      if room m a then (p, { m with block := fun x => if x = a then some (s ++ [b]) else m.block x })
      else (m.free p).alloc (s ++ [b])

/-- `Vec::extend_from_slice`, `Read::read_to_end` (std). Simplification: byte by byte; that there is room for several bytes at once is
that there is room for each of them. -/
def Mem.extend (room : Mem → Nat → Bool) : Mem → Ptr → Str → Ptr × Mem
  | m, p, [] => (p, m)
  | m, p, b :: s => let (p, m) := m.push room p b; Mem.extend room m p s

/-- The bytes that `read_to_end` of at most `cap` bytes has put in the buffer, even if it fails. -/
def Source.given (cap : Nat) : Source → Str
  | [] => []
  | (bytes, _) :: _ => bytes.take cap

/-- What a scanner was given: where it is, the text, and the tokens scanned, which borrow from nothing else: they have the
lifetime of the text (`/repo/src/scanner/mod.rs`, `scan_tokens`). Not in the code. -/
structure View where
  at_ : Ptr
  text : Str
  tokens : List TokenEntry

/-- `/repo/src/reader/owned.rs:159-183`: `Impl`, the memory, and what scanners have been given so far. The contents of `tail` are moved when
it grows, but nothing borrows from them: only from what they point to. -/
structure Holder where
  head : Ptr := none
  tail : List Ptr := []
  source : Source
  exhausted : Bool := false
  mem : Mem := {}
  views : List View := []

/-- `/repo/src/reader/owned.rs:190-216`: `refresh_buffer`. -/
def Holder.refresh (room : Mem → Nat → Bool) (size : Nat → Nat → Nat) (o : Holder) (mark : Nat) : Out ReaderError Unit × Holder :=
  let (head, m) := o.mem.load o.head
  if head.length < mark then (.panic, { o with mem := m })
  else
    let cap := size o.tail.length mark
    let (new, m) := m.extend room none (head.drop mark)
    let (new, m) := m.extend room new (o.source.given cap)
    match o.source.take cap with
    | (.ok bytes, source) =>
      let (s, m) := m.load new
      if validUtf8 s then
        (.ok (), { o with head := new, tail := o.tail ++ [o.head], source, exhausted := bytes.isEmpty, mem := m })
      else (.err (.UTF8 {}), { o with source, exhausted := bytes.isEmpty, mem := m.free new })
    | (.err e, source) => (.err e, { o with source, mem := m.free new })
    | (.panic, source) => (.panic, { o with source, mem := m.free new })
    | (.diverge, source) => (.diverge, { o with source, mem := m.free new })

/-- `/repo/src/reader/owned.rs:130-150,178-181`: `data`, given to a scanner which then makes these tokens of it. -/
def Holder.give (o : Holder) (tokens : List TokenEntry) : Holder :=
  { o with mem := (o.mem.load o.head).2, views := o.views ++ [⟨o.head, (o.mem.load o.head).1, tokens⟩] }

/-- `/repo/src/reader/owned.rs:55-85`: the loop of `drive_scanner`. -/
def heldLoop (room : Mem → Nat → Bool) (size : Nat → Nat → Nat) (opts : SFlags) : Nat → Holder → Scanner → List TokenEntry →
    Out ReaderError Unit × List TokenEntry × (Holder × Scanner)
  | 0, o, sc, out => (.diverge, out, (o, sc))
  | fuel + 1, o, sc, out =>
    match scanTokens { opts with extendable := !o.exhausted } (o.mem.load o.head).1 sc with
    | (.ok _, sc, more) => (.ok (), out ++ more, (o.give more, sc))
    | (.err .Extend, sc, more) =>
      match (o.give more).refresh room size sc.offset with
      | (.ok _, o) => heldLoop room size opts fuel o { sc with offset := 0 } (out ++ more)
      | (.err e, o) => (.err e, out ++ more, (o, sc))
      | (.panic, o) => (.panic, out ++ more, (o, sc))
      | (.diverge, o) => (.diverge, out ++ more, (o, sc))
    | (.err e, sc, more) => (.err (.Scanner e), out ++ more, (o.give more, sc))
    | (.panic, sc, more) => (.panic, out ++ more, (o.give more, sc))
    | (.diverge, sc, more) => (.diverge, out ++ more, (o.give more, sc))

/-- `/repo/src/reader/owned.rs:90-94`: `OwnedReader::drive`, as `ownedDrive`. -/
def heldDrive (room : Mem → Nat → Bool) (size : Nat → Nat → Nat) (opts : SFlags) (s : Holder × Scanner) :
    Out ReaderError Unit × List TokenEntry × (Holder × Scanner) :=
  heldLoop room size opts (s.1.source.reads + 3) s.1 s.2 []

/-- Dropping `Impl` (161-162): its fields in order. -/
def Holder.drop (o : Holder) : Mem := o.tail.foldl Mem.free (o.mem.free o.head)

end Yary
