import Verif.Model.Scan.Owned
import Verif.Spec.Reader
import Verif.Spec.Utf8

/-! # Reading in chunks -/

namespace Yary.Spec

/-- The position is between two characters of the text, or at one of its ends. -/
def Cut (text : Str) (n : Nat) : Prop := ∃ p q : List Char, text = utf8 p ++ utf8 q ∧ (utf8 p).length = n

/-- The source delivers the text and ends, or fails with an error after it has delivered the beginning of the text. -/
inductive Supplies : Source → Str → Option IoError → Prop where
  | all (text : Str) : Supplies [(text, none)] text none
  | part (bytes rest : Str) (e : IoError) (src : Source) : Supplies ((bytes, some e) :: src) (bytes ++ rest) (some e)

/-- The errors of reading itself: that of the source, or that of a chunk which ends inside a character. Chunks have `size a b`
bytes for some `a` and `b`. -/
def ReadFails (size : Nat → Nat → Nat) (text : Str) (err : Option IoError) : ReaderError → Prop
  | .IO e => err = some e
  | .UTF8 _ => ∃ a b n, size a b ≤ n ∧ n < text.length ∧ ¬ Cut text n
  | .Scanner _ => False

/-- Two histories report the same until something other than a token is reported, or until the first one reports an error
in `E`. -/
inductive Agree (E : ReaderError → Prop) : List (ROp × Out ReaderError (Option TokenEntry)) →
    List (ROp × Out ReaderError (Option TokenEntry)) → Prop where
  | nil : Agree E [] []
  | ok {op : ROp} {t : Option TokenEntry} {h h'} (rest : Agree E h h') : Agree E ((op, .ok t) :: h) ((op, .ok t) :: h')
  | same {op : ROp} {x : Out ReaderError (Option TokenEntry)} {h h'} (hx : ∀ t, x ≠ .ok t) : Agree E ((op, x) :: h) ((op, x) :: h')
  | fails {op : ROp} {e : ReaderError} {y : Out ReaderError (Option TokenEntry)} {h h'} (he : E e) :
      Agree E ((op, .err e) :: h) ((op, y) :: h')

/-- Two histories report related tokens until something other than a token is reported, or until the first one reports an error
in `E`. -/
inductive AgreeBy (Q : TokenEntry → TokenEntry → Prop) (E : ReaderError → Prop) : List (ROp × Out ReaderError (Option TokenEntry)) →
    List (ROp × Out ReaderError (Option TokenEntry)) → Prop where
  | nil : AgreeBy Q E [] []
  | token {op : ROp} {t t' : TokenEntry} {h h'} (ht : Q t t') (rest : AgreeBy Q E h h') :
      AgreeBy Q E ((op, .ok (some t)) :: h) ((op, .ok (some t')) :: h')
  | none {op : ROp} {h h'} (rest : AgreeBy Q E h h') : AgreeBy Q E ((op, .ok none) :: h) ((op, .ok none) :: h')
  | same {op : ROp} {x : Out ReaderError (Option TokenEntry)} {h h'} (hx : ∀ t, x ≠ .ok t) : AgreeBy Q E ((op, x) :: h) ((op, x) :: h')
  | fails {op : ROp} {e : ReaderError} {y : Out ReaderError (Option TokenEntry)} {h h'} (he : E e) :
      AgreeBy Q E ((op, .err e) :: h) ((op, y) :: h')

/-- All the bytes of a source. -/
def bytesOf (src : Source) : Str := src.flatMap (·.1)

/-- The states a reader of a source gets into between two calls of the scanner, as long as nothing panics: the scanner
works on the chunk, and when it has asked for more text, the reader goes on to the next chunk, or, only if `errs`, fails to do so. -/
inductive Between (errs : Bool) (size : Nat → Nat → Nat) (opts : SFlags) (src : Source) : Owned → Scanner → Prop where
  | start : Between errs size opts src { source := src } {}
  | scan {ow : Owned} {sc sc' : Scanner} {r : Out ScanError Unit} {out : List TokenEntry} (before : Between errs size opts src ow sc)
      (h : scanTokens { opts with extendable := !ow.exhausted } ow.head sc = (r, sc', out)) (hr : r ≠ .panic) :
      Between errs size opts src ow sc'
  | chunk {ow ow' : Owned} {sc sc' : Scanner} {out : List TokenEntry} (before : Between errs size opts src ow sc)
      (h : scanTokens { opts with extendable := !ow.exhausted } ow.head sc = (.err .Extend, sc', out))
      (next : ow.refresh size sc'.offset = (.ok (), ow')) : Between errs size opts src ow' { sc' with offset := 0 }
  | fails {ow ow' : Owned} {sc sc' : Scanner} {out : List TokenEntry} {e : ReaderError} (he : errs = true) (before : Between errs size opts src ow sc)
      (h : scanTokens { opts with extendable := !ow.exhausted } ow.head sc = (.err .Extend, sc', out))
      (next : ow.refresh size sc'.offset = (.err e, ow')) : Between errs size opts src ow' sc'

/-- What a history of calls reports, on a source read in chunks. -/
def chunked (size : Nat → Nat → Nat) (opts : SFlags) (src : Source) (ops : List ROp) :
    List (ROp × Out ReaderError (Option TokenEntry)) :=
  (runOps (ownedDrive size opts) ops (.new ({ source := src }, {}))).1

/-- The reader after a history of calls, on a source read in chunks. -/
def chunkedAfter (size : Nat → Nat → Nat) (opts : SFlags) (src : Source) (ops : List ROp) : PeekReader (Owned × Scanner) :=
  (runOps (ownedDrive size opts) ops (.new ({ source := src }, {}))).2

/-- The reports up to the first that is not a token or the end. -/
def upToError : List (ROp × Out ReaderError (Option TokenEntry)) → List (ROp × Out ReaderError (Option TokenEntry))
  | [] => []
  | (op, .ok t) :: h => (op, .ok t) :: upToError h
  | x :: _ => [x]

end Yary.Spec
