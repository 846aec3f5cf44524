import Verif.Db.TxnModel

/-!
# Model of the handles of `src/napr_db.c`

`napr_db_env_create`, `napr_db_env_set_mapsize`, `napr_db_env_open` and `napr_db_env_close` with the flags, the calls of the operating system that may fail, and
the descriptors and mappings that are open.  What a handle gives access to is an environment of `Verif.Db.TxnModel`.

* A mapping covers whole pages of 4096 bytes, and so does the file as seen through it; reading a page of the mapping that lies beyond the end of the file is undefined
  behaviour (`SIGBUS`).
* `ftruncate` fails on a descriptor that is not open for writing, and so does `write`.
* Between `apr_stat` and `apr_file_open` nobody else creates or removes the file.
* NULL arguments, `APR_ENOMEM` and the use of a handle after a failed call are not modelled.
-/

namespace Verif.Db

open Verif.Page

/-- The calls that may fail inside `napr_db_env_open`. -/
inductive Call where
  | stat | open | trunc | map | mapAddr | sync | lock | table
  deriving Repr, DecidableEq

/-- What `napr_db_env_open` returns: `os c` is the error that the call `c` reported. -/
inductive OpenSt where
  | ok | inval | noent | os (c : Call)
  deriving Repr, DecidableEq

/-- A file: its length in bytes and its pages. -/
structure Disk where
  len : Nat
  page : Nat → Page

/-- The file at the path, if there is one, and how many descriptors and mappings the process has open. -/
structure Sys where
  path : Option Disk
  fds : Nat
  maps : Nat

/-- A handle, napr_db_internal.h L278-304: the size set, `env->file` (open for writing?), `env->mmap` (writable?), and what the other fields amount to. -/
structure Handle where
  mapsize : Nat
  file : Option Bool
  map : Option Bool
  db : Option Env

/-- The flags `NAPR_DB_RDONLY` and `NAPR_DB_CREATE`, napr_db.h L56-68.  `NAPR_DB_INTRAPROCESS_LOCK` only selects the kind of mutex (L274-283). -/
structure Flags where
  rdonly : Bool
  create : Bool
  deriving Repr, DecidableEq

/-- napr_db.c L33-60 `napr_db_env_create`. -/
def newHandle : Handle := ⟨0, none, none, none⟩

/-- napr_db.c L72-84 `napr_db_env_set_mapsize`; `false` is `APR_EINVAL`. -/
def setMapsize (h : Handle) (size : Nat) : Bool × Handle := if size = 0 then (false, h) else (true, { h with mapsize := size })

/-- Whole pages. -/
def pagesIn (bytes : Nat) : Nat := (bytes + 4095) / 4096

/-- napr_db.c L172-215 `db_file_open`: the status, whether the file is new, and the new state. -/
def fileOpen (fails : Call → Bool) (fl : Flags) (s : Sys) (h : Handle) : OpenSt × Bool × Sys × Handle :=
  if fails .stat then (.os .stat, false, s, h)
  else match s.path with
    | some _ =>
      if fails .open then (.os .open, false, s, h)
      else (.ok, false, { s with fds := s.fds + 1 }, { h with file := some (!fl.rdonly) })
    | none =>
      if !fl.create then (.noent, false, s, h)
      else if fails .open then (.os .open, true, s, h)
      else if fl.rdonly || fails .trunc then (.os .trunc, true, { s with path := some ⟨0, fun _ => zeroPage⟩ }, { h with file := none })
      else (.ok, true, { s with path := some ⟨8192, fun _ => zeroPage⟩, fds := s.fds + 1 }, { h with file := some true })

/-- napr_db.c L223-239 `db_mmap_file`. -/
def mapFile (fails : Call → Bool) (fl : Flags) (s : Sys) (h : Handle) : OpenSt × Sys × Handle :=
  if fails .map then (.os .map, s, h)
  else if fails .mapAddr then (.os .mapAddr, s, { h with map := none })
  else (.ok, { s with maps := s.maps + 1 }, { h with map := some (!fl.rdonly) })

/-- napr_db.c L248-266 `db_init_meta`. -/
def initMeta (fails : Call → Bool) (new : Bool) (s : Sys) (h : Handle) : Res (OpenSt × Sys × Handle) :=
  if new then do
    let env ← envCreate (pagesIn h.mapsize)
    let s' : Sys := { s with path := some ⟨8192, env.file⟩ }
    if fails .sync then .ok (.os .sync, s', h)
    else .ok (.ok, s', { h with db := some env })
  else match s.path with
    | none => .ok (.noent, s, h)
    | some d => do
      let r ← envOpen d.page (pagesIn d.len) (pagesIn h.mapsize)
      match r with
      | .error _ => .ok (.inval, s, h)
      | .ok env => .ok (.ok, s, { h with db := some env })

/-- napr_db.c L321-323: the file is closed. -/
def dropFile (s : Sys) (h : Handle) : Sys × Handle := ({ s with fds := s.fds - 1 }, { h with file := none })

/-- napr_db.c L328-332 (and L338-342, L351-355): the mapping is removed and the file closed. -/
def dropAll (s : Sys) (h : Handle) : Sys × Handle := ({ s with fds := s.fds - 1, maps := s.maps - 1 }, { h with file := none, map := none, db := none })

/-- napr_db.c L296-356 `napr_db_env_open`. -/
def openHandle (fails : Call → Bool) (fl : Flags) (s : Sys) (h : Handle) : Res (OpenSt × Sys × Handle) :=
  if h.mapsize = 0 then .ok (.inval, s, h)
  else match fileOpen fails fl s h with
    | (.ok, new, s1, h1) =>
      match mapFile fails fl s1 h1 with
      | (.ok, s2, h2) => do
        let r ← initMeta fails new s2 h2
        match r with
        | (.ok, s3, h3) =>
          if fails .lock then .ok (.os .lock, dropAll s3 h3)
          else if fails .table then .ok (.os .table, dropAll s3 h3)
          else .ok (.ok, s3, h3)
        | (e, s3, h3) => .ok (e, dropAll s3 h3)
      | (e, s2, h2) => .ok (e, dropFile s2 h2)
    | (e, _, s1, h1) => .ok (e, s1, h1)

/-- napr_db.c L367-390 `napr_db_env_close`. -/
def closeHandle (s : Sys) (h : Handle) : Sys × Handle :=
  let (s1, h1) := if h.map.isSome then ({ s with maps := s.maps - 1 }, { h with map := none, db := none }) else (s, h)
  if h1.file.isSome then ({ s1 with fds := s1.fds - 1 }, { h1 with file := none }) else (s1, h1)

/-- The first file operation of a commit that fails if the descriptor is not open for writing: `apr_file_seek` and `apr_file_sync` succeed, writing does not. -/
def refusedAt (acts : List Act) : Nat := acts.findIdx (fun a => !a.isSync)

/-- napr_db.c L1184-1262 `napr_db_txn_commit` of a write transaction of a handle opened with or without `NAPR_DB_RDONLY`; nothing else fails. -/
def commitOn (writable : Bool) (al : Alloc) (env : Env) (t : Txn) : Res (Status × Env) :=
  if writable then commitWith al none env t
  else if t.dirty = [] then commitWith al none env t
  else do
    match ← commitActs al env t with
    | .error _ => commitWith al none env t
    | .ok acts => commitWith al (some (refusedAt acts)) env t

/-- Another handle on the same file: it has its own `live_meta` pointer, writer lock and reader table (napr_db_internal.h L278-304), and sees through its map what is in
the file. -/
def onFile (o e : Env) : Env := { o with file := e.file, filePages := e.filePages }

end Verif.Db
