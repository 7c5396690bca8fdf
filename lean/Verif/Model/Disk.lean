import Verif.Model.Readers
/-!
# Model of the file system as the catalogue uses it

A file system maps paths to contents.  Every call to the operating system consults a list of faults: the call may succeed, fail with
an error after part of its effect, or be the moment the process dies after part of its effect.  Theorems quantify over all such
lists, hence over every crash point and every partial write.  When the list is used up, calls succeed.

Simplifications: directories and permissions are not modelled (their failures are `fail` faults); symbolic and hard links are not
modelled (two different paths are two different files); a crash is the death of the process, so writes already made are kept (no loss of
writes in the operating system's cache); nobody else modifies the files during a call (between calls anything may change them).
-/

namespace Flu

abbrev Path := GoString

/-- File contents by path; `none` where there is no file. -/
abbrev FS := Path → Option Bytes

/-- Replace, create or delete one file. -/
def FS.put (fs : FS) (p : Path) (c : Option Bytes) : FS := fun q => if q = p then c else fs q

/-- What happens at one operating-system call.  The `Option Nat` says how much of the effect took place: `none` is nothing at all,
`some k` the first `k` bytes (for calls that are not byte-wise: the whole effect). -/
inductive Fault where
  | none
  | fail (eff : Option Nat)
  | crash (eff : Option Nat)
  deriving DecidableEq, Repr

/-- A stateful Go computation: its outcome and the state it leaves, which is kept also after an error, a panic or a crash. -/
def IOM (σ α : Type) := σ → Res α × σ

namespace IOM

/-- Sequencing. -/
def bind {σ α β : Type} (x : IOM σ α) (f : α → IOM σ β) : IOM σ β := fun s =>
  match x s with
  | (.ok a, s') => f a s'
  | (.err e, s') => (.err e, s')
  | (.panic, s') => (.panic, s')
  | (.exit, s') => (.exit, s')
  | (.crash, s') => (.crash, s')

instance {σ : Type} : Monad (IOM σ) where
  pure a := fun s => (.ok a, s)
  bind := bind

/-- A pure computation that may fail or panic. -/
def lift {σ α : Type} (r : Res α) : IOM σ α := fun s => (r, s)
/-- Change the state. -/
def modify {σ : Type} (f : σ → σ) : IOM σ Unit := fun s => (.ok (), f s)
/-- Run `x`, ignoring an error it returns (Go code that drops the `error` result). -/
def ignoreErr {σ : Type} (x : IOM σ Unit) : IOM σ Unit := fun s =>
  match x s with
  | (.err _, s') => (.ok (), s')
  | r => r
/-- Turn an error return into a panic (`if err != nil { panic(err) }`). -/
def orPanic {σ α : Type} (x : IOM σ α) : IOM σ α := fun s =>
  match x s with
  | (.err _, s') => (.panic, s')
  | r => r

end IOM

/-- Where a Go `int64`/`int` value comes from an unsigned 64-bit one: two's complement reinterpretation. -/
def asInt64 (v : UInt64) : Int := v.toBitVec.toInt

/-- Bytes written at an offset: the gap up to it, if any, reads as zeros (`pwrite`); writing nothing changes nothing. -/
def overlay (c : Bytes) (start : Nat) (data : Bytes) : Bytes :=
  if data = [] then c
  else
    let c' := c ++ List.replicate (start - c.length) 0
    c'.take start ++ data ++ c'.drop (start + data.length)

end Flu
