import Verif.Period.Model

/-!
# The built-in factor tables and the constructor that reads them

`AlgorithmPrimitivity.cpp:53-170`; the final `NULL` is part of the arrays.
-/

namespace MTT.Period

/-- A C string array with its terminating `NULL`. -/
def cTable (l : List String) : List (Option (List Char)) := l.map (fun s => some s.toList) ++ [none]

/-- `prime_factors2_128_1`, AlgorithmPrimitivity.cpp:53-55. -/
def factors128 : List (Option (List Char)) := cTable
  ["3", "5", "17", "257", "641", "65537", "274177", "6700417", "67280421310721"]

/-- `prime_factors2_160_1`, AlgorithmPrimitivity.cpp:57-59. -/
def factors160 : List (Option (List Char)) := cTable
  ["3", "5", "11", "17", "31", "41", "257", "61681", "65537", "414721", "4278255361", "44479210368001"]

/-- `prime_factors2_192_1`, AlgorithmPrimitivity.cpp:61-63. -/
def factors192 : List (Option (List Char)) := cTable
  ["3", "5", "7", "13", "17", "97", "193", "241", "257", "641", "673", "65537", "6700417", "22253377",
   "18446744069414584321"]

/-- `prime_factors2_224_1`, AlgorithmPrimitivity.cpp:65-68. -/
def factors224 : List (Option (List Char)) := cTable
  ["3", "5", "17", "29", "43", "113", "127", "257", "449", "2689", "5153", "65537", "15790321",
   "183076097", "54410972897", "358429848460993"]

/-- `prime_factors2_256_1`, AlgorithmPrimitivity.cpp:70-73. -/
def factors256 : List (Option (List Char)) := cTable
  ["3", "5", "17", "257", "641", "65537", "274177", "6700417", "67280421310721", "59649589127497217",
   "5704689200685129054721"]

/-- `prime_factors2_288_1`, AlgorithmPrimitivity.cpp:75-79. -/
def factors288 : List (Option (List Char)) := cTable
  ["3", "5", "7", "13", "17", "19", "37", "73", "97", "109", "193", "241", "257", "433", "577", "673",
   "1153", "6337", "38737", "65537", "22253377", "38941695937", "278452876033", "487824887233"]

/-- `prime_factors2_320_1`, AlgorithmPrimitivity.cpp:81-85. -/
def factors320 : List (Option (List Char)) := cTable
  ["3", "5", "11", "17", "31", "41", "257", "641", "61681", "65537", "414721", "3602561", "6700417",
   "4278255361", "44479210368001", "94455684953484563055991838558081"]

/-- `prime_factors2_352_1`, AlgorithmPrimitivity.cpp:87-91. -/
def factors352 : List (Option (List Char)) := cTable
  ["3", "5", "17", "23", "89", "257", "353", "397", "683", "2113", "65537", "229153", "5304641",
   "119782433", "2931542417", "43872038849", "275509565477848842604777623828011666349761"]

/-- `prime_factors2_384_1`, AlgorithmPrimitivity.cpp:93-98. -/
def factors384 : List (Option (List Char)) := cTable
  ["3", "5", "7", "13", "17", "97", "193", "241", "257", "641", "673", "769", "65537", "274177",
   "6700417", "22253377", "67280421310721", "18446744069414584321",
   "442499826945303593556473164314770689"]

/-- `prime_factors2_416_1`, AlgorithmPrimitivity.cpp:100-105. -/
def factors416 : List (Option (List Char)) := cTable
  ["3", "5", "17", "53", "157", "257", "1613", "2731", "8191", "65537", "858001", "928513", "308761441",
   "18558466369", "23877647873", "21316654212673", "715668470267111297", "78919881726271091143763623681"]

/-- `prime_factors2_448_1`, AlgorithmPrimitivity.cpp:107-112. -/
def factors448 : List (Option (List Char)) := cTable
  ["3", "5", "17", "29", "43", "113", "127", "257", "449", "641", "2689", "5153", "65537", "6700417",
   "15790321", "183076097", "54410972897", "358429848460993", "167773885276849215533569",
   "37414057161322375957408148834323969"]

/-- `prime_factors2_480_1`, AlgorithmPrimitivity.cpp:114-120. -/
def factors480 : List (Option (List Char)) := cTable
  ["3", "5", "7", "11", "13", "17", "31", "41", "61", "97", "151", "193", "241", "257", "331", "673",
   "1321", "23041", "61681", "65537", "414721", "22253377", "394783681", "4278255361", "4562284561",
   "46908728641", "44479210368001", "14768784307009061644318236958041601"]

/-- `prime_factors2_512_1`, AlgorithmPrimitivity.cpp:122-128. -/
def factors512 : List (Option (List Char)) := cTable
  ["3", "5", "17", "257", "641", "65537", "274177", "6700417", "67280421310721", "1238926361552897",
   "59649589127497217", "5704689200685129054721",
   "93461639715357977769163558199606896584051237541638188580280321"]

/-- `prime_factors2_544_1`, AlgorithmPrimitivity.cpp:130-137. -/
def factors544 : List (Option (List Char)) := cTable
  ["3", "5", "17", "137", "257", "953", "5441", "26317", "43691", "65537", "131071", "354689", "383521",
   "2368179743873", "2879347902817", "373200722470799764577", "335631827046798245410603730138717057",
   "63406006407727721042109834220642811713"]

/-- `prime_factors2_640_1`, AlgorithmPrimitivity.cpp:139-146. -/
def factors640 : List (Option (List Char)) := cTable
  ["3", "5", "11", "17", "31", "41", "257", "641", "61681", "65537", "274177", "286721", "414721",
   "3602561", "6700417", "446960641", "4278255361", "96645260801", "44479210368001", "67280421310721",
   "3442404051886487041", "94455684953484563055991838558081", "2715862005931406599419575483412481"]

/-- `prime_factors2_800_1`, AlgorithmPrimitivity.cpp:148-157. -/
def factors800 : List (Option (List Char)) := cTable
  ["3", "5", "11", "17", "31", "41", "101", "251", "257", "401", "601", "1601", "1801", "4051", "8101",
   "25601", "61681", "65537", "268501", "340801", "414721", "2787601", "82471201", "3173389601",
   "4278255361", "44479210368001", "3399426377632056001", "4850484222084371979240001",
   "432363203127002885506543172618401", "129541188208935646963818844716591986208974410651257601"]

/-- `prime_factors2_960_1`, AlgorithmPrimitivity.cpp:159-170. -/
def factors960 : List (Option (List Char)) := cTable
  ["3", "5", "7", "11", "13", "17", "31", "41", "61", "97", "151", "193", "241", "257", "331", "641",
   "673", "1321", "23041", "26881", "61681", "65537", "414721", "3602561", "4855681", "6700417",
   "22253377", "394783681", "610548481", "4278255361", "4562284561", "46908728641", "137603804161",
   "44479210368001", "18446744069414584321", "94455684953484563055991838558081",
   "14768784307009061644318236958041601", "10559241583796365631935764162530238561452234881"]

/-- The tables with their degrees. -/
def allTables : List (ℕ × List (Option (List Char))) :=
  [(128, factors128),
   (160, factors160),
   (192, factors192),
   (224, factors224),
   (256, factors256),
   (288, factors288),
   (320, factors320),
   (352, factors352),
   (384, factors384),
   (416, factors416),
   (448, factors448),
   (480, factors480),
   (512, factors512),
   (544, factors544),
   (640, factors640),
   (800, factors800),
   (960, factors960)]

/-- C's `isspace`, which decides what NTL's input functions skip. -/
def isSpace (c : Char) : Bool := c ∈ [' ', '\t', '\n', '\x0b', '\x0c', '\r']

/-- NTL's `operator>>(istream&, ZZ&)`: white space is skipped, then an optional minus sign and digits are
read; `none`: no digit (NTL aborts).  Result and the unread rest of the stream. -/
def readZZ (s : List Char) : Option (ℤ × List Char) :=
  let s := s.dropWhile isSpace
  let neg := s.head? = some '-'
  let s := if neg then s.tail else s
  let digits := s.takeWhile (·.isDigit)
  if digits = [] then none
  else
    let v := parseLoop 0 digits
    some (if neg then -v else v, s.dropWhile (·.isDigit))

/-- The loop of the constructor `AlgorithmPrimitivity(const char*[])`, AlgorithmPrimitivity.cpp:23-29; `ss` is
the unread content of the string stream, which is shared by all entries.  A read that looks beyond the last
character of the stream leaves it in the state `eof`: then nothing can be written to it any more and the
next `ss >> w` aborts. -/
def ctorLoop (ss : List Char) : List (Option (List Char)) → Option (List ℤ)
  | [] => none
  | none :: _ => some []
  | some s :: rest =>
    match readZZ (ss ++ s ++ [' ']) with
    | none => none
    | some (w, []) => if rest.head? = some none then some [w] else none
    | some (w, c :: ss) => (ctorLoop (c :: ss) rest).map (w :: ·)

/-- `AlgorithmPrimitivity(const char*[])`, AlgorithmPrimitivity.cpp:13-30: the resulting `primes`. -/
def ctor (table : List (Option (List Char))) : Option (List ℤ) := ctorLoop [] table

end MTT.Period
