import Verif.Model.Storage
/-!
What is recorded in a storage, as seen through its tables.
-/
namespace Verif

/-- Both storages have the same recorded calls, refs, values and ops, in memory on top of the database and in the
database. (Whether something is held in the cache as well is not observable.) -/
structure SameView (s s' : St) : Prop where
  calls : s'.calls = s.calls
  atoms : ∀ k, (s'.atoms.get k).1 = (s.atoms.get k).1
  shapes : ∀ k, (s'.shapes.get k).1 = (s.shapes.get k).1
  ops : ∀ k, (s'.ops.get k).1 = (s.ops.get k).1
  dbAtoms : s'.atoms.pers = s.atoms.pers
  dbShapes : s'.shapes.pers = s.shapes.pers
  dbOps : s'.ops.pers = s.ops.pers

/-- Both storages give the same answers to every read and have the same databases. (What is held in the caches may
differ.) -/
structure SameReads (s s' : St) : Prop where
  callsExist : ∀ k, s'.calls.exists_ k = s.calls.exists_ k
  callsData : ∀ k, s'.calls.getData k = s.calls.getData k
  atoms : ∀ k, (s'.atoms.get k).1 = (s.atoms.get k).1
  shapes : ∀ k, (s'.shapes.get k).1 = (s.shapes.get k).1
  ops : ∀ k, (s'.ops.get k).1 = (s.ops.get k).1
  dbCalls : s'.calls.pers = s.calls.pers
  dbAtoms : s'.atoms.pers = s.atoms.pers
  dbShapes : s'.shapes.pers = s.shapes.pers
  dbOps : s'.ops.pers = s.ops.pers

end Verif
