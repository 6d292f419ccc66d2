{
 "C71": {
  "also": [
   "Ferryd.C21_index_exact"
  ]
 },
 "C76": {
  "also": [
   "Ferryd.Jobs.C36_sequential_order",
   "Ferryd.Jobs.C38_done_once"
  ]
 }
}