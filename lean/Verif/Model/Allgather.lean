/-
Model of impurityModel/ed/mpi_comm.py.
-/
import Verif.Py.Dict
import Verif.Model.Mpi

namespace Verif

open Mpi

variable {κ ν : Type} [DecidableEq κ]

/-- The messages of `allgather_dict`: lengths and numbers of chunks, dictionaries,
`None`. -/
inductive GatherMsg (κ ν : Type) where
  | number (k : ℕ)
  | dict (d : Dict κ ν)
  | none

/-- Use of a message as a number, e.g. in `range(n_chunks)`. -/
def asNumber : GatherMsg κ ν → Prog (GatherMsg κ ν) ℕ
  | .number k => .ret k
  | _ => .fail .typeError

/-- Use of a message as a dictionary, e.g. in `total.update(...)`. -/
def asDict : GatherMsg κ ν → Prog (GatherMsg κ ν) (Dict κ ν)
  | .dict d => .ret d
  | _ => .fail .typeError

/-- mpi_comm.py:74-75: the lengths of the data of all ranks. -/
def gatherLengths (data : Dict κ ν) : List ℕ → List ℕ → Prog (GatherMsg κ ν) (List ℕ)
  | [], acc => .ret acc
  | r :: rs, acc => (bcast r (.number data.length)).bind fun m => (asNumber m).bind fun k =>
      gatherLengths data rs (acc ++ [k])

/-- mpi_comm.py:81-82: everything at once. -/
def gatherAll (data : Dict κ ν) : List ℕ → Dict κ ν → Prog (GatherMsg κ ν) (Dict κ ν)
  | [], total => .ret total
  | r :: rs, total => (bcast r (.dict data)).bind fun m => (asDict m).bind fun d =>
      gatherAll data rs (Dict.update total d)

/-- `math.ceil(len / chunk_maxsize)`; the quotient is a float in Python, exact
enough for lengths below 2^53. -/
def ceilDiv (len chunk : ℕ) : Py ℕ :=
  if chunk = 0 then .error .zeroDivisionError else .ok ((len + chunk - 1) / chunk)

/-- mpi_comm.py:42: `count` times `{k: data[k] for k in islice(it, chunk_maxsize)}`;
`rest` are the entries that the iterator has not given yet. -/
def isliceChunks (chunk : ℕ) : ℕ → Dict κ ν → List (Dict κ ν)
  | 0, _ => []
  | count + 1, rest => rest.take chunk :: isliceChunks chunk count (rest.drop chunk)

/-- mpi_comm.py:18-45 `dict_chunks_from_one_MPI_rank` on rank `rank`: the list of
what the generator yields. -/
def dictChunksFromOneRank (data : Dict κ ν) (chunk root rank : ℕ) :
    Prog (GatherMsg κ ν) (List (GatherMsg κ ν)) :=
  (if rank = root then
    (Prog.lift (ceilDiv data.length chunk)).bind fun k => .ret (GatherMsg.number k)
    else .ret GatherMsg.none).bind fun v =>
  (bcast root v).bind fun m => (asNumber m).bind fun nChunks =>
  .ret (if rank = root then (isliceChunks chunk nChunks data).map .dict
    else List.replicate nChunks .none)

/-- mpi_comm.py:91-93: broadcast of the chunks. -/
def gatherChunks (root : ℕ) : List (GatherMsg κ ν) → Dict κ ν → Prog (GatherMsg κ ν) (Dict κ ν)
  | [], total => .ret total
  | c :: cs, total => (bcast root c).bind fun m => (asDict m).bind fun d =>
      gatherChunks root cs (Dict.update total d)

/-- mpi_comm.py:89-93: all ranks' data in chunks. -/
def gatherChunked (data : Dict κ ν) (chunk rank : ℕ) :
    List ℕ → Dict κ ν → Prog (GatherMsg κ ν) (Dict κ ν)
  | [], total => .ret total
  | r :: rs, total =>
    (dictChunksFromOneRank data chunk r rank).bind fun chunks =>
    (gatherChunks r chunks total).bind fun total => gatherChunked data chunk rank rs total

/-- mpi_comm.py:48-95 `allgather_dict` on rank `rank` of `ranks`; the result is
the updated `total`.  `np.int`, which newer numpy versions do not have, is taken
to exist.  Printing and timing are left out. -/
def allgatherDict (data total : Dict κ ν) (chunk rank ranks : ℕ) :
    Prog (GatherMsg κ ν) (Dict κ ν) :=
  (gatherLengths data (List.range ranks) []).bind fun lengths =>
    if lengths.foldl max 0 ≤ chunk then gatherAll data (List.range ranks) total
    else gatherChunked data chunk rank (List.range ranks) total

end Verif
