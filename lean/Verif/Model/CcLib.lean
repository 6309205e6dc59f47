import Verif.Model.MethodLib

/-! # Model of `MethodLib::cc_lib` and its cache file

`src/method_lib/mod.rs:176-222`. A call of `cc_lib` is a process that shares one file, the cache, with
other calls. A process advances by one system call at a time, so that it can be interrupted by a crash or
by other processes between any two of them. The outcome of each system call is chosen by the environment
(`Choice`).

Simplifications: reading the file is one step; nothing but calls of `cc_lib` changes or removes the
file; `dirs::cache_dir` either gives the same directory to every call or gives none. Texts are their
bytes, and `parse` stands for checking that bytes are UTF-8 and reading them with `serde_json`: both
failures have the same effect on `cc_lib`. -/

namespace Bellframe

namespace CcLib

/-- The bytes of a text or a file. -/
abbrev Bytes : Type := List UInt8

/-- `MethodLib::from_json` of a text — src/method_lib/mod.rs:168-170. -/
def fromText (lower : String → String) (parse : Bytes → Option Json) (text : Bytes) :
    Res (Option MethodLib) :=
  match parse text with
  | none => .ok none
  | some json => MethodLib.fromJson lower json

/-- The cache file: `none` if it does not exist. -/
abbrev Disk : Type := Option Bytes

/-- What the environment decides about one step: whether the path of the cache is known and the system
call succeeds, and how many bytes a write takes. -/
structure Choice where
  access : Bool
  chunk : Nat
  deriving DecidableEq

/-- Where a call of `cc_lib` stands. -/
inductive Proc where
  /-- before reading the cache — src/method_lib/mod.rs:182 -/
  | start
  /-- the cache could not be loaded: before the request — src/method_lib/mod.rs:201 -/
  | fetch
  /-- the library was fetched: before the cache file is created — src/method_lib/mod.rs:209 -/
  | save (text : Bytes) (lib : MethodLib)
  /-- the cache file is open and `off` bytes are written — src/method_lib/mod.rs:210 -/
  | writing (text : Bytes) (off : Nat) (lib : MethodLib)
  /-- `cc_lib` has returned or panicked -/
  | done (result : Res (Option MethodLib))

/-- The `write` system call: bytes replaced from an offset on, a gap before it being filled with zeros. -/
def writeAt (file : Bytes) (off : Nat) (chunk : Bytes) : Bytes :=
  (file ++ List.replicate (off - file.length) 0).take off ++ chunk ++ file.drop (off + chunk.length)

/-- `load_cc_lib_from_cache` — src/method_lib/mod.rs:193-197, given what could be read. -/
def loadFromCache (lower : String → String) (parse : Bytes → Option Json) (content : Disk) :
    Res (Option MethodLib) :=
  match content with
  | none => .ok none
  | some text => fromText lower parse text

/-- One step of a call of `cc_lib` — src/method_lib/mod.rs:180-214. `reply` is the text that the request
gets (`none` if it fails). `std::fs::write` is creating (and emptying) the file and then writing
until all is written; its errors, one of which is writing 0 bytes, are ignored. -/
def step (lower : String → String) (parse : Bytes → Option Json) (reply : Option Bytes) (c : Choice)
    (disk : Disk) : Proc → Disk × Proc
  | .start =>
    match loadFromCache lower parse (if c.access then disk else none) with
    | .error e => (disk, .done (.error e))
    | .ok (some lib) => (disk, .done (.ok (some lib)))
    | .ok none => (disk, .fetch)
  | .fetch =>
    match reply with
    | none => (disk, .done (.ok none))
    | some text =>
      match fromText lower parse text with
      | .error e => (disk, .done (.error e))
      | .ok none => (disk, .done (.ok none))
      | .ok (some lib) => (disk, .save text lib)
  | .save text lib =>
    if c.access then (some [], .writing text 0 lib) else (disk, .done (.ok (some lib)))
  | .writing text off lib =>
    if off < text.length then
      if c.access ∧ 0 < c.chunk then
        let chunk := (text.drop off).take c.chunk
        (disk.map fun file => writeAt file off chunk, .writing text (off + chunk.length) lib)
      else (disk, .done (.ok (some lib)))
    else (disk, .done (.ok (some lib)))
  | .done result => (disk, .done result)

/-- Some steps of one process that runs alone. A crash is that no more steps follow. -/
def run (lower : String → String) (parse : Bytes → Option Json) (reply : Option Bytes) :
    List Choice → Disk × Proc → Disk × Proc
  | [], s => s
  | c :: cs, s => run lower parse reply cs (step lower parse reply c s.1 s.2)

/-- Calls one after the other: of each, its reply and the steps it makes before it ends or crashes. -/
def runs (lower : String → String) (parse : Bytes → Option Json) :
    List (Option Bytes × List Choice) → Disk → Disk
  | [], disk => disk
  | r :: rs, disk => runs lower parse rs (run lower parse r.1 r.2 (disk, .start)).1

/-- Calls at the same time: the file and where each process stands. -/
structure System where
  disk : Disk
  procs : Nat → Proc

/-- One step of process `i`. -/
def System.step (lower : String → String) (parse : Bytes → Option Json) (reply : Nat → Option Bytes)
    (s : System) (i : Nat) (c : Choice) : System :=
  let r := CcLib.step lower parse (reply i) c s.disk (s.procs i)
  ⟨r.1, fun j => if j = i then r.2 else s.procs j⟩

/-- A schedule: which process makes each step. A process that crashes is not scheduled any more. -/
def System.exec (lower : String → String) (parse : Bytes → Option Json) (reply : Nat → Option Bytes) :
    List (Nat × Choice) → System → System
  | [], s => s
  | (i, c) :: rest, s => exec lower parse reply rest (s.step lower parse reply i c)

end CcLib

end Bellframe
