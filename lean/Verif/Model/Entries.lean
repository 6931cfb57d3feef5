import Verif.Model.Tarball
/-
`Package::entries` (/repo/crates/nassun/src/package.rs:105-151), `Tarball::entries` and `Tarball::poll_read`
(/repo/crates/nassun/src/tarball.rs:141-195), entries.rs.

The libraries between the caller and the tarball (async_tar's `Archive`, `GzipDecoder`, `BufReader`) are a parameter: something that asks
for bytes when it needs them and hands out entries and pieces of their contents.
-/

set_option linter.unusedSectionVars false

namespace Oro
namespace Tar
variable {σ E : Type}

/-- what the library does next when it is polled -/
inductive Want (σ E : Type) where
  /-- it reads from the tarball -/
  | more
  /-- it hands something to the caller: an entry, or a piece of the contents of one -/
  | item (e : E) (s : σ)
  /-- it says that there are no more entries -/
  | stop
  /-- it says that the archive is broken -/
  | bad

/-- the libraries that unpack an archive while it is read -/
structure Unpacker (σ E : Type) where
  start : σ
  next : σ → Want σ E
  /-- the bytes that were read (none: that was all) -/
  give : σ → Bytes → σ

/-- how a stream of entries ended -/
inductive EEnd where
  | done
  | failed (e : RErr)
  | bad
  deriving DecidableEq

/-- a stream of entries; `out`: what the caller got, `got`: the bytes that were read, `told`: whether a read said that that was all -/
structure ERun (σ E : Type) where
  tar : Tarball
  st : σ
  got : Bytes := []
  told : Bool := false
  out : List E := []
  over : Option EEnd := none

/-- tarball.rs:142-164 `entries` -/
def Unpacker.open (u : Unpacker σ E) (t : Tarball) : ERun σ E := { tar := t, st := u.start }

/-- package.rs:105-108, 115-122, 128-131: the stream with the integrity that the package was resolved with, if there is one -/
def packageTarball (integrity : Option Integrity) (evs : List Ev) : Tarball :=
  match integrity with
  | some i => .new evs i
  | none => .newUnchecked evs

/-- entries.rs:28-38, 106-114 with tarball.rs:168-195: one step. An error is handed to the caller, who stops there. -/
def Unpacker.step (u : Unpacker σ E) (digest : Nat → Bytes → Str) (x : ERun σ E) : ERun σ E :=
  match x.over with
  | some _ => x
  | none => match u.next x.st with
    | .more => match x.tar.pollRead digest with
      | (.error e, t) => { x with tar := t, over := some (.failed e) }
      | (.ok b, t) => { x with tar := t, st := u.give x.st b, got := x.got ++ b, told := x.told || b.isEmpty }
    | .item e s => { x with st := s, out := x.out ++ [e] }
    | .stop => { x with over := some .done }
    | .bad => { x with over := some .bad }

/-- so many steps -/
def Unpacker.run (u : Unpacker σ E) (digest : Nat → Bytes → Str) : Nat → ERun σ E → ERun σ E
  | 0, x => x
  | n + 1, x => u.step digest (u.run digest n x)

end Tar
end Oro
