import Verif.Params.Units0
set_option autoImplicit false
/-
The tables of unit names of sprockit/sprockit/units.cc, in the order of the assignments.
-/
namespace SST.Params.Units

/-- `abbrname` of `populateBandwidthNames`, units.cc:90-231: case-sensitive names, in bits per
second.  Each row is one chain of assignments. -/
def abbrTable : List (List (List Char) × Nat) := [
  -- units.cc:94
  ([['b', 'p', 's'], ['b', '/', 's'], ['b', '/', 's', 'e', 'c']], 1),
  -- units.cc:98
  ([['B', 'p', 's'], ['B', '/', 's'], ['B', '/', 's', 'e', 'c']], 8),
  -- units.cc:102
  ([['k', 'b', 'p', 's'], ['K', 'b', 'p', 's'], ['k', 'b', '/', 's'], ['K', 'b', '/', 's']], 1000),
  -- units.cc:108
  ([['k', 'i', 'b', 'p', 's'], ['K', 'i', 'b', 'p', 's'], ['k', 'i', 'b', '/', 's'], ['K', 'i', 'b', '/', 's']], 1024),
  -- units.cc:114
  ([['k', 'B', 'p', 's'], ['K', 'B', 'p', 's'], ['k', 'B', '/', 's'], ['K', 'B', '/', 's']], 1000 * 8),
  -- units.cc:120
  ([['k', 'i', 'B', 'p', 's'], ['K', 'i', 'B', 'p', 's'], ['k', 'i', 'B', '/', 's'], ['K', 'i', 'B', '/', 's']], 1024 * 8),
  -- units.cc:126
  ([['m', 'b', 'p', 's'], ['M', 'b', 'p', 's'], ['m', 'b', '/', 's'], ['M', 'b', '/', 's']], 1000 * 1000),
  -- units.cc:132
  ([['m', 'i', 'b', 'p', 's'], ['M', 'i', 'b', 'p', 's'], ['m', 'i', 'b', '/', 's'], ['M', 'i', 'b', '/', 's']], 1024 * 1024),
  -- units.cc:138
  ([['m', 'B', 'p', 's'], ['M', 'B', 'p', 's'], ['m', 'B', '/', 's'], ['M', 'B', '/', 's']], 1000 * 1000 * 8),
  -- units.cc:144
  ([['m', 'i', 'B', 'p', 's'], ['M', 'i', 'B', 'p', 's'], ['m', 'i', 'B', '/', 's'], ['M', 'i', 'B', '/', 's']], 1024 * 1024 * 8),
  -- units.cc:150
  ([['g', 'b', 'p', 's'], ['G', 'b', 'p', 's'], ['g', 'b', '/', 's'], ['G', 'b', '/', 's']], 1000 * 1000 * 1000),
  -- units.cc:156
  ([['g', 'i', 'b', 'p', 's'], ['G', 'i', 'b', 'p', 's'], ['g', 'i', 'b', '/', 's'], ['G', 'i', 'b', '/', 's']], 1024 * 1024 * 1024),
  -- units.cc:162
  ([['g', 'B', 'p', 's'], ['G', 'B', 'p', 's'], ['g', 'B', '/', 's'], ['G', 'B', '/', 's']], 1000 * 1000 * 1000 * 8),
  -- units.cc:169
  ([['g', 'i', 'B', 'p', 's'], ['G', 'i', 'B', 'p', 's'], ['g', 'i', 'B', '/', 's'], ['G', 'i', 'B', '/', 's']], 1024 * 1024 * 1024 * 8),
  -- units.cc:176
  ([['t', 'b', 'p', 's'], ['T', 'b', 'p', 's'], ['t', 'b', '/', 's'], ['T', 'b', '/', 's']], 1000 * 1000 * 1000 * 1000),
  -- units.cc:183
  ([['g', 'i', 'b', 'p', 's'], ['G', 'i', 'b', 'p', 's'], ['g', 'i', 'b', '/', 's'], ['G', 'i', 'b', '/', 's']], 1024 * 1024 * 1024 * 1024),
  -- units.cc:190
  ([['t', 'B', 'p', 's'], ['T', 'B', 'p', 's'], ['t', 'B', '/', 's'], ['T', 'B', '/', 's']], 1000 * 1000 * 1000 * 1000 * 8),
  -- units.cc:197
  ([['t', 'i', 'B', 'p', 's'], ['T', 'i', 'B', 'p', 's'], ['t', 'i', 'B', '/', 's'], ['T', 'i', 'B', '/', 's']], 1024 * 1024 * 1024 * 8),
  -- units.cc:204
  ([['p', 'b', 'p', 's'], ['P', 'b', 'p', 's'], ['p', 'b', '/', 's'], ['P', 'b', '/', 's']], 1000 * 1000 * 1000 * 1000 * 1000),
  -- units.cc:211
  ([['g', 'i', 'b', 'p', 's'], ['G', 'i', 'b', 'p', 's'], ['g', 'i', 'b', '/', 's'], ['G', 'i', 'b', '/', 's']], 1024 * 1024 * 1024 * 1024 * 1024),
  -- units.cc:218
  ([['t', 'B', 'p', 's'], ['T', 'B', 'p', 's'], ['t', 'B', '/', 's'], ['T', 'B', '/', 's']], 1000 * 1000 * 1000 * 1000 * 1000 * 8),
  -- units.cc:225
  ([['p', 'i', 'B', 'p', 's'], ['P', 'i', 'B', 'p', 's'], ['p', 'i', 'B', '/', 's'], ['P', 'i', 'B', '/', 's']], 1024 * 1024 * 1024 * 8)]

/-- `fullname` of `populateBandwidthNames`, units.cc:90-231: names compared in lower case. -/
def fullTable : List (List (List Char) × Nat) := [
  -- units.cc:94
  ([['b', 'i', 't', 's', '/', 's'], ['b', 'i', 't', 's', '/', 's', 'e', 'c'], ['b', 'i', 't', 's', '/', 's', 'e', 'c', 'o', 'n', 'd'], ['b', 'i', 't', 's', ' ', 'p', 'e', 'r', ' ', 's', 'e', 'c', 'o', 'n', 'd']], 1),
  -- units.cc:98
  ([['b', 'y', 't', 'e', 's', '/', 's'], ['b', 'y', 't', 'e', 's', '/', 's', 'e', 'c'], ['b', 'y', 't', 'e', 's', '/', 's', 'e', 'c', 'o', 'n', 'd'], ['b', 'y', 't', 'e', 's', ' ', 'p', 'e', 'r', ' ', 's', 'e', 'c', 'o', 'n', 'd']], 8),
  -- units.cc:102
  ([['k', 'b', 'i', 't', 's', '/', 's'], ['k', 'b', 'i', 't', 's', '/', 's', 'e', 'c'], ['k', 'b', 'i', 't', 's', '/', 's', 'e', 'c', 'o', 'n', 'd'], ['k', 'i', 'l', 'o', 'b', 'i', 't', 's', '/', 's'], ['k', 'i', 'l', 'o', 'b', 'i', 't', 's', '/', 's', 'e', 'c'], ['k', 'i', 'l', 'o', 'b', 'i', 't', 's', '/', 's', 'e', 'c', 'o', 'n', 'd'], ['k', 'i', 'l', 'o', 'b', 'i', 't', 's', ' ', 'p', 'e', 'r', ' ', 's', 'e', 'c', 'o', 'n', 'd']], 1000),
  -- units.cc:108
  ([['k', 'i', 'b', 'i', 't', 's', '/', 's'], ['k', 'i', 'b', 'i', 't', 's', '/', 's', 'e', 'c'], ['k', 'i', 'b', 'i', 't', 's', '/', 's', 'e', 'c', 'o', 'n', 'd'], ['k', 'i', 'b', 'i', 'b', 'i', 't', 's', '/', 's'], ['k', 'i', 'b', 'i', 'b', 'i', 't', 's', '/', 's', 'e', 'c'], ['k', 'i', 'b', 'i', 'b', 'i', 't', 's', '/', 's', 'e', 'c', 'o', 'n', 'd'], ['k', 'i', 'b', 'i', 'b', 'i', 't', 's', ' ', 'p', 'e', 'r', ' ', 's', 'e', 'c', 'o', 'n', 'd']], 1024),
  -- units.cc:114
  ([['k', 'b', 'y', 't', 'e', 's', '/', 's'], ['k', 'b', 'y', 't', 'e', 's', '/', 's', 'e', 'c'], ['k', 'b', 'y', 't', 'e', 's', '/', 's', 'e', 'c', 'o', 'n', 'd'], ['k', 'i', 'l', 'o', 'b', 'y', 't', 'e', 's', '/', 's'], ['k', 'i', 'l', 'o', 'b', 'y', 't', 'e', 's', '/', 's', 'e', 'c'], ['k', 'i', 'l', 'o', 'b', 'y', 't', 'e', 's', '/', 's', 'e', 'c', 'o', 'n', 'd'], ['k', 'i', 'l', 'o', 'b', 'y', 't', 'e', 's', ' ', 'p', 'e', 'r', ' ', 's', 'e', 'c', 'o', 'n', 'd']], 1000 * 8),
  -- units.cc:120
  ([['k', 'i', 'b', 'y', 't', 'e', 's', '/', 's'], ['k', 'i', 'b', 'y', 't', 'e', 's', '/', 's', 'e', 'c'], ['k', 'i', 'b', 'y', 't', 'e', 's', '/', 's', 'e', 'c', 'o', 'n', 'd'], ['k', 'i', 'b', 'i', 'b', 'y', 't', 'e', 's', '/', 's'], ['k', 'i', 'b', 'i', 'b', 'y', 't', 'e', 's', '/', 's', 'e', 'c'], ['k', 'i', 'b', 'i', 'b', 'y', 't', 'e', 's', '/', 's', 'e', 'c', 'o', 'n', 'd'], ['k', 'i', 'b', 'i', 'b', 'y', 't', 'e', 's', ' ', 'p', 'e', 'r', ' ', 's', 'e', 'c', 'o', 'n', 'd']], 1024 * 8),
  -- units.cc:126
  ([['m', 'b', 'i', 't', 's', '/', 's'], ['m', 'b', 'i', 't', 's', '/', 's', 'e', 'c'], ['m', 'b', 'i', 't', 's', '/', 's', 'e', 'c', 'o', 'n', 'd'], ['m', 'e', 'g', 'a', 'b', 'i', 't', 's', '/', 's'], ['m', 'e', 'g', 'a', 'b', 'i', 't', 's', '/', 's', 'e', 'c'], ['m', 'e', 'g', 'a', 'b', 'i', 't', 's', '/', 's', 'e', 'c', 'o', 'n', 'd'], ['m', 'e', 'g', 'a', 'b', 'i', 't', 's', ' ', 'p', 'e', 'r', ' ', 's', 'e', 'c', 'o', 'n', 'd']], 1000 * 1000),
  -- units.cc:132
  ([['m', 'i', 'b', 'i', 't', 's', '/', 's'], ['m', 'i', 'b', 'i', 't', 's', '/', 's', 'e', 'c'], ['m', 'i', 'b', 'i', 't', 's', '/', 's', 'e', 'c', 'o', 'n', 'd'], ['m', 'e', 'b', 'i', 'b', 'i', 't', 's', '/', 's'], ['m', 'e', 'b', 'i', 'b', 'i', 't', 's', '/', 's', 'e', 'c'], ['m', 'e', 'b', 'i', 'b', 'i', 't', 's', '/', 's', 'e', 'c', 'o', 'n', 'd'], ['m', 'e', 'b', 'i', 'b', 'i', 't', 's', ' ', 'p', 'e', 'r', ' ', 's', 'e', 'c', 'o', 'n', 'd']], 1024 * 1024),
  -- units.cc:138
  ([['m', 'b', 'y', 't', 'e', 's', '/', 's'], ['m', 'b', 'y', 't', 'e', 's', '/', 's', 'e', 'c'], ['m', 'b', 'y', 't', 'e', 's', '/', 's', 'e', 'c', 'o', 'n', 'd'], ['m', 'e', 'g', 'a', 'b', 'y', 't', 'e', 's', '/', 's'], ['m', 'e', 'g', 'a', 'b', 'y', 't', 'e', 's', '/', 's', 'e', 'c'], ['m', 'e', 'g', 'a', 'b', 'y', 't', 'e', 's', '/', 's', 'e', 'c', 'o', 'n', 'd'], ['m', 'e', 'g', 'a', 'b', 'y', 't', 'e', 's', ' ', 'p', 'e', 'r', ' ', 's', 'e', 'c', 'o', 'n', 'd']], 1000 * 1000 * 8),
  -- units.cc:144
  ([['m', 'i', 'b', 'y', 't', 'e', 's', '/', 's'], ['m', 'i', 'b', 'y', 't', 'e', 's', '/', 's', 'e', 'c'], ['m', 'i', 'b', 'y', 't', 'e', 's', '/', 's', 'e', 'c', 'o', 'n', 'd'], ['m', 'e', 'b', 'i', 'b', 'y', 't', 'e', 's', '/', 's'], ['m', 'e', 'b', 'i', 'b', 'y', 't', 'e', 's', '/', 's', 'e', 'c'], ['m', 'e', 'b', 'i', 'b', 'y', 't', 'e', 's', '/', 's', 'e', 'c', 'o', 'n', 'd'], ['m', 'e', 'b', 'i', 'b', 'y', 't', 'e', 's', ' ', 'p', 'e', 'r', ' ', 's', 'e', 'c', 'o', 'n', 'd']], 1024 * 1024 * 8),
  -- units.cc:150
  ([['g', 'b', 'i', 't', 's', '/', 's'], ['g', 'b', 'i', 't', 's', '/', 's', 'e', 'c'], ['g', 'b', 'i', 't', 's', '/', 's', 'e', 'c', 'o', 'n', 'd'], ['g', 'i', 'g', 'a', 'b', 'i', 't', 's', '/', 's'], ['g', 'i', 'g', 'a', 'b', 'i', 't', 's', '/', 's', 'e', 'c'], ['g', 'i', 'g', 'a', 'b', 'i', 't', 's', '/', 's', 'e', 'c', 'o', 'n', 'd'], ['g', 'i', 'g', 'a', 'b', 'i', 't', 's', ' ', 'p', 'e', 'r', ' ', 's', 'e', 'c', 'o', 'n', 'd']], 1000 * 1000 * 1000),
  -- units.cc:156
  ([['g', 'i', 'b', 'i', 't', 's', '/', 's'], ['g', 'i', 'b', 'i', 't', 's', '/', 's', 'e', 'c'], ['g', 'i', 'b', 'i', 't', 's', '/', 's', 'e', 'c', 'o', 'n', 'd'], ['g', 'i', 'b', 'i', 'b', 'i', 't', 's', '/', 's'], ['g', 'i', 'b', 'i', 'b', 'i', 't', 's', '/', 's', 'e', 'c'], ['g', 'i', 'b', 'i', 'b', 'i', 't', 's', '/', 's', 'e', 'c', 'o', 'n', 'd'], ['g', 'i', 'b', 'i', 'b', 'i', 't', 's', ' ', 'p', 'e', 'r', ' ', 's', 'e', 'c', 'o', 'n', 'd']], 1024 * 1024 * 1024),
  -- units.cc:162
  ([['g', 'b', 'y', 't', 'e', 's', '/', 's'], ['g', 'b', 'y', 't', 'e', 's', '/', 's', 'e', 'c'], ['g', 'b', 'y', 't', 'e', 's', '/', 's', 'e', 'c', 'o', 'n', 'd'], ['g', 'i', 'g', 'a', 'b', 'y', 't', 'e', 's', '/', 's'], ['g', 'i', 'g', 'a', 'b', 'y', 't', 'e', 's', '/', 's', 'e', 'c'], ['g', 'i', 'g', 'a', 'b', 'y', 't', 'e', 's', '/', 's', 'e', 'c', 'o', 'n', 'd'], ['g', 'i', 'g', 'a', 'b', 'y', 't', 'e', 's', ' ', 'p', 'e', 'r', ' ', 's', 'e', 'c', 'o', 'n', 'd']], 1000 * 1000 * 1000 * 8),
  -- units.cc:169
  ([['g', 'i', 'b', 'y', 't', 'e', 's', '/', 's'], ['g', 'i', 'b', 'y', 't', 'e', 's', '/', 's', 'e', 'c'], ['g', 'i', 'b', 'y', 't', 'e', 's', '/', 's', 'e', 'c', 'o', 'n', 'd'], ['g', 'i', 'b', 'i', 'b', 'y', 't', 'e', 's', '/', 's'], ['g', 'i', 'b', 'i', 'b', 'y', 't', 'e', 's', '/', 's', 'e', 'c'], ['g', 'i', 'b', 'i', 'b', 'y', 't', 'e', 's', '/', 's', 'e', 'c', 'o', 'n', 'd'], ['g', 'i', 'b', 'i', 'b', 'y', 't', 'e', 's', ' ', 'p', 'e', 'r', ' ', 's', 'e', 'c', 'o', 'n', 'd']], 1024 * 1024 * 1024 * 8),
  -- units.cc:176
  ([['t', 'b', 'i', 't', 's', '/', 's'], ['t', 'b', 'i', 't', 's', '/', 's', 'e', 'c'], ['t', 'b', 'i', 't', 's', '/', 's', 'e', 'c', 'o', 'n', 'd'], ['t', 'e', 'r', 'a', 'b', 'i', 't', 's', '/', 's'], ['t', 'e', 'r', 'a', 'b', 'i', 't', 's', '/', 's', 'e', 'c'], ['t', 'e', 'r', 'a', 'b', 'i', 't', 's', '/', 's', 'e', 'c', 'o', 'n', 'd'], ['t', 'e', 'r', 'a', 'b', 'i', 't', 's', ' ', 'p', 'e', 'r', ' ', 's', 'e', 'c', 'o', 'n', 'd']], 1000 * 1000 * 1000 * 1000),
  -- units.cc:183
  ([['t', 'e', 'b', 'i', 't', 's', '/', 's'], ['t', 'e', 'b', 'i', 't', 's', '/', 's', 'e', 'c'], ['t', 'e', 'b', 'i', 't', 's', '/', 's', 'e', 'c', 'o', 'n', 'd'], ['t', 'e', 'b', 'i', 'b', 'i', 't', 's', '/', 's'], ['t', 'e', 'b', 'i', 'b', 'i', 't', 's', '/', 's', 'e', 'c'], ['t', 'e', 'b', 'i', 'b', 'i', 't', 's', '/', 's', 'e', 'c', 'o', 'n', 'd'], ['t', 'e', 'b', 'i', 'b', 'i', 't', 's', ' ', 'p', 'e', 'r', ' ', 's', 'e', 'c', 'o', 'n', 'd']], 1024 * 1024 * 1024 * 1024),
  -- units.cc:190
  ([['t', 'b', 'y', 't', 'e', 's', '/', 's'], ['t', 'b', 'y', 't', 'e', 's', '/', 's', 'e', 'c'], ['t', 'b', 'y', 't', 'e', 's', '/', 's', 'e', 'c', 'o', 'n', 'd'], ['t', 'e', 'r', 'a', 'b', 'y', 't', 'e', 's', '/', 's'], ['t', 'e', 'r', 'a', 'b', 'y', 't', 'e', 's', '/', 's', 'e', 'c'], ['t', 'e', 'r', 'a', 'b', 'y', 't', 'e', 's', '/', 's', 'e', 'c', 'o', 'n', 'd'], ['t', 'e', 'r', 'a', 'b', 'y', 't', 'e', 's', ' ', 'p', 'e', 'r', ' ', 's', 'e', 'c', 'o', 'n', 'd']], 1000 * 1000 * 1000 * 1000 * 8),
  -- units.cc:197
  ([['t', 'i', 'b', 'y', 't', 'e', 's', '/', 's'], ['t', 'i', 'b', 'y', 't', 'e', 's', '/', 's', 'e', 'c'], ['t', 'i', 'b', 'y', 't', 'e', 's', '/', 's', 'e', 'c', 'o', 'n', 'd'], ['t', 'e', 'b', 'i', 'b', 'y', 't', 'e', 's', '/', 's'], ['t', 'e', 'b', 'i', 'b', 'y', 't', 'e', 's', '/', 's', 'e', 'c'], ['t', 'e', 'b', 'i', 'b', 'y', 't', 'e', 's', '/', 's', 'e', 'c', 'o', 'n', 'd'], ['t', 'e', 'b', 'i', 'b', 'y', 't', 'e', 's', ' ', 'p', 'e', 'r', ' ', 's', 'e', 'c', 'o', 'n', 'd']], 1024 * 1024 * 1024 * 8),
  -- units.cc:204
  ([['p', 'b', 'i', 't', 's', '/', 's'], ['p', 'b', 'i', 't', 's', '/', 's', 'e', 'c'], ['p', 'b', 'i', 't', 's', '/', 's', 'e', 'c', 'o', 'n', 'd'], ['p', 'e', 't', 'a', 'b', 'i', 't', 's', '/', 's'], ['p', 'e', 't', 'a', 'b', 'i', 't', 's', '/', 's', 'e', 'c'], ['p', 'e', 't', 'a', 'b', 'i', 't', 's', '/', 's', 'e', 'c', 'o', 'n', 'd'], ['p', 'e', 't', 'a', 'b', 'i', 't', 's', ' ', 'p', 'e', 'r', ' ', 's', 'e', 'c', 'o', 'n', 'd']], 1000 * 1000 * 1000 * 1000 * 1000),
  -- units.cc:211
  ([['p', 'e', 'b', 'i', 't', 's', '/', 's'], ['p', 'e', 'b', 'i', 't', 's', '/', 's', 'e', 'c'], ['p', 'e', 'b', 'i', 't', 's', '/', 's', 'e', 'c', 'o', 'n', 'd'], ['p', 'e', 'b', 'i', 'b', 'i', 't', 's', '/', 's'], ['p', 'e', 'b', 'i', 'b', 'i', 't', 's', '/', 's', 'e', 'c'], ['p', 'e', 'b', 'i', 'b', 'i', 't', 's', '/', 's', 'e', 'c', 'o', 'n', 'd'], ['p', 'e', 'b', 'i', 'b', 'i', 't', 's', ' ', 'p', 'e', 'r', ' ', 's', 'e', 'c', 'o', 'n', 'd']], 1024 * 1024 * 1024 * 1024 * 1024),
  -- units.cc:218
  ([['t', 'b', 'y', 't', 'e', 's', '/', 's'], ['t', 'b', 'y', 't', 'e', 's', '/', 's', 'e', 'c'], ['t', 'b', 'y', 't', 'e', 's', '/', 's', 'e', 'c', 'o', 'n', 'd'], ['p', 'e', 't', 'a', 'b', 'y', 't', 'e', 's', '/', 's'], ['p', 'e', 't', 'a', 'b', 'y', 't', 'e', 's', '/', 's', 'e', 'c'], ['p', 'e', 't', 'a', 'b', 'y', 't', 'e', 's', '/', 's', 'e', 'c', 'o', 'n', 'd'], ['p', 'e', 't', 'a', 'b', 'y', 't', 'e', 's', ' ', 'p', 'e', 'r', ' ', 's', 'e', 'c', 'o', 'n', 'd']], 1000 * 1000 * 1000 * 1000 * 1000 * 8),
  -- units.cc:225
  ([['p', 'i', 'b', 'y', 't', 'e', 's', '/', 's'], ['p', 'i', 'b', 'y', 't', 'e', 's', '/', 's', 'e', 'c'], ['p', 'i', 'b', 'y', 't', 'e', 's', '/', 's', 'e', 'c', 'o', 'n', 'd'], ['p', 'e', 'b', 'i', 'b', 'y', 't', 'e', 's', '/', 's'], ['p', 'e', 'b', 'i', 'b', 'y', 't', 'e', 's', '/', 's', 'e', 'c'], ['p', 'e', 'b', 'i', 'b', 'y', 't', 'e', 's', '/', 's', 'e', 'c', 'o', 'n', 'd'], ['p', 'e', 'b', 'i', 'b', 'y', 't', 'e', 's', ' ', 'p', 'e', 'r', ' ', 's', 'e', 'c', 'o', 'n', 'd']], 1024 * 1024 * 1024 * 8)]

/-- `populateFrequencyNames`, units.cc:298-310: hertz. -/
def freqTable : List (List (List Char) × Nat) := [
  -- units.cc:303
  ([['h', 'z'], ['H', 'z'], ['H', 'Z']], 1),
  -- units.cc:304
  ([['k', 'h', 'z'], ['K', 'h', 'z'], ['K', 'H', 'z'], ['H', 'Z']], 1000),
  -- units.cc:306
  ([['m', 'h', 'z'], ['M', 'h', 'z'], ['M', 'H', 'z'], ['M', 'H', 'Z']], 1000 * 1000),
  -- units.cc:308
  ([['g', 'h', 'z'], ['G', 'h', 'z'], ['G', 'H', 'z'], ['G', 'H', 'Z']], 1000 * 1000 * 1000)]

/-- `populate_length_names`, units.cc:312-326: bytes. -/
def lengthTable : List (List (List Char) × Nat) := [
  -- units.cc:317
  ([['B'], ['b', 'y', 't', 'e', 's'], ['B', 'y', 't', 'e', 's']], 1),
  -- units.cc:319
  ([['K', 'B'], ['K', 'b', 'y', 't', 'e', 's'], ['K', 'B', 'y', 't', 'e', 's']], 1000),
  -- units.cc:321
  ([['M', 'B'], ['M', 'b', 'y', 't', 'e', 's'], ['M', 'B', 'y', 't', 'e', 's']], 1000 * 1000),
  -- units.cc:323
  ([['G', 'B'], ['G', 'b', 'y', 't', 'e', 's'], ['G', 'B', 'y', 't', 'e', 's']], 1000 * 1000 * 1000),
  -- units.cc:325
  ([['T', 'B'], ['T', 'b', 'y', 't', 'e', 's'], ['T', 'B', 'y', 't', 'e', 's']], 1000 * 1000 * 1000 * 1000)]

/-- `populateTimeDeltaNames`, units.cc:328-338: the number `k` of a multiplier `1e-k` seconds. -/
def timeTable : List (List (List Char) × Nat) := [
  -- units.cc:333
  ([['p', 's'], ['p', 's', 'e', 'c'], ['p', 's', 'e', 'c', 'o', 'n', 'd', 's'], ['p', 'i', 'c', 'o', 's', 'e', 'c', 'o', 'n', 'd', 's']], 12),
  -- units.cc:334
  ([['n', 's'], ['n', 's', 'e', 'c'], ['n', 's', 'e', 'c', 'o', 'n', 'd', 's'], ['n', 'a', 'n', 'o', 's', 'e', 'c', 'o', 'n', 'd', 's']], 9),
  -- units.cc:335
  ([['u', 's'], ['u', 's', 'e', 'c'], ['u', 's', 'e', 'c', 'o', 'n', 'd', 's'], ['m', 'i', 'c', 'r', 'o', 's', 'e', 'c', 'o', 'n', 'd', 's']], 6),
  -- units.cc:336
  ([['m', 's'], ['m', 's', 'e', 'c'], ['m', 's', 'e', 'c', 'o', 'n', 'd', 's'], ['m', 'i', 'l', 'l', 'i', 's', 'e', 'c', 'o', 'n', 'd', 's']], 3),
  -- units.cc:337
  ([['s'], ['s', 'e', 'c'], ['s', 'e', 'c', 'o', 'n', 'd', 's']], 0)]

end SST.Params.Units
