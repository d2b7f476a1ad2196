import Verif.Model.Dynamic

/-!
Counting the work of the reconstructions: how many records the shard constructors are handed in a history.
-/

namespace DE
variable {R : Type}

/-- The shard class `I` with an odometer. Every shard carries, in the field of the tombstone count (which the framework itself never
reads, `get_tombstone_count` and `validate_tombstone_proportion` apart), the number of records handed to the constructor that made it
and to the constructors of all shards it was made from. The constructor from a buffer view is handed the records of the view (e.g.
ISAMTree.h 51-65), the constructor from shards the records of those shards (67-88); the framework calls them in InternalLevel.h 59,
75, 103-107 and 122-126. -/
def ShardImpl.counted (I : ShardImpl R) : ShardImpl R where
  build v := (I.build v).map fun s => { s with tscnt := v.count }
  merge ss := (I.merge ss).map fun s => { s with tscnt := ((ss.filterMap id).map fun x => x.data.length + x.tscnt).sum }
  lookup := I.lookup

/-- The odometers of the shards of the index together. A merge passes on the odometers of its inputs, so this is the number of records
handed to shard constructors so far, less what went into shards that were dropped. -/
def Index.work (d : Index R) : Nat := d.str.tombstoneCount

/-- A shard, level, structure, class and index without their tombstone counts. -/
def Shard.bare (s : Shard R) : Shard R := { s with tscnt := 0 }

/-- Levels: InternalLevel.h 285-292. -/
def Level.bare (l : Level R) : Level R :=
  { l with shards := l.shards.map (Option.map Shard.bare), pending := l.pending.map Shard.bare }

/-- Structure: ExtensionStructure.h 535-550. -/
def Struct.bare (st : Struct R) : Struct R := { st with levels := st.levels.map Level.bare }

/-- Shard class. -/
def ShardImpl.bare (I : ShardImpl R) : ShardImpl R where
  build v := (I.build v).map Shard.bare
  merge ss := (I.merge ss).map Shard.bare
  lookup := I.lookup

/-- Index: DynamicExtension.h. -/
def Index.bare (d : Index R) : Index R := { d with impl := d.impl.bare, str := d.str.bare }

end DE
